#!/usr/bin/env python3
"""Print the set of axioms used by the theorems named in MANIFEST.json (needs a finished build)."""
import json, pathlib, re, subprocess, tempfile
root = pathlib.Path(__file__).resolve().parent.parent
names = sorted({t for c in json.load(open(root / 'MANIFEST.json'))['claims'] for t in c['theorems']})
src = 'import Verif\n' + ''.join(f'#print axioms {n}\n' for n in names)
with tempfile.NamedTemporaryFile('w', suffix='.lean', delete=False) as f:
    f.write(src)
out = subprocess.run(['lake', 'env', 'lean', f.name], cwd=root / 'lean', capture_output=True, text=True).stdout
used = {}
for m in re.finditer(r"'([^']+)' (?:depends on axioms: \[([^\]]*)\]|does not depend on any axioms)", out):
    key = ', '.join(sorted(x.strip() for x in m.group(2).split(','))) if m.group(2) else 'none'
    used.setdefault(key, []).append(m.group(1))
for k, v in sorted(used.items()):
    print(f'{k}: {len(v)} theorems')
print(f'{sum(map(len, used.values()))} of {len(names)} theorems')
