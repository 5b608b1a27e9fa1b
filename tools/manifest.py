#!/usr/bin/env python3
"""Regenerate MANIFEST.json from the theorem names in lean/Verif/Props and tools/status.json."""
import json, re, pathlib
root = pathlib.Path(__file__).resolve().parent.parent
st = json.load(open(root / 'tools' / 'status.json'))
thms = {}
for f in sorted((root / 'lean' / 'Verif' / 'Props').glob('*.lean')):
    for m in re.finditer(r"^theorem (C(\d+)_[A-Za-z0-9_']+)", f.read_text(), re.M):
        thms.setdefault('C' + m.group(2), []).append('EvalRound.' + m.group(1))
claims = []
for line in open(root / 'properties.jsonl'):
    pid = json.loads(line)['id']
    e = st.get(pid)
    if e is None:
        if pid in thms:
            raise SystemExit(f'{pid} has theorems but no status')
        continue
    claims.append({'property': pid, 'status': e['status'], 'theorems': thms.get(pid, []), 'note': e['note']})
json.dump({'claims': claims}, open(root / 'MANIFEST.json', 'w'), indent=1)
print({s: sum(c['status'] == s for c in claims) for s in ('proved', 'partial', 'not_applicable')})
