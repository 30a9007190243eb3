#!/usr/bin/env python3
"""Writes MANIFEST.json and lean/Verif/Audit.lean from the table below."""
import json, os, re, glob
ROOT = os.path.dirname(os.path.dirname(os.path.abspath(__file__)))
exec(open(os.path.join(ROOT, 'tools', 'claims.py')).read())
src = ''.join(open(f).read() for f in glob.glob(os.path.join(ROOT, 'lean/Verif/Props/*.lean')))
have = set('Dawg.Props.' + n for n in re.findall(r'^theorem (C\d\d\d?_\w+)', src, re.M))
used = set()
claims = []
for prop, status, thms, note in CLAIMS:
    full = ['Dawg.Props.' + t for t in thms]
    for t in full:
        assert t in have, t
        used.add(t)
    claims.append(dict(property=prop, status=status, theorems=full, note=note))
for t in sorted(have - used):
    print('not claimed:', t)
json.dump({'claims': claims}, open(os.path.join(ROOT, 'MANIFEST.json'), 'w'), indent=1, ensure_ascii=False)
mods = sorted(os.path.basename(f)[:-5] for f in glob.glob(os.path.join(ROOT, 'lean/Verif/Props/*.lean')))
with open(os.path.join(ROOT, 'lean/Verif/Audit.lean'), 'w') as f:
    for m in mods:
        f.write(f'import Verif.Props.{m}\n')
    f.write('/-! # The axioms every property theorem depends on (printed by the build; generated by tools/manifest.py) -/\n')
    for t in sorted(used):
        f.write(f'#print axioms {t}\n')
ids = [json.loads(l)['id'] for l in open(os.path.join(ROOT, 'properties.jsonl'))]
print('unclaimed properties:', [i for i in ids if i not in [c['property'] for c in claims]])
