#!/usr/bin/env python3
"""Regenerate AXIOMS.txt: the axioms each theorem of MANIFEST.json depends on.
Run after `lake build` (needs the compiled modules)."""
import json, re, subprocess, tempfile, os
root = os.path.dirname(os.path.dirname(os.path.abspath(__file__)))
man = json.load(open(f'{root}/MANIFEST.json'))
names = [t for c in man['claims'] for t in c['theorems']]
src = 'import Verif\n' + ''.join(f'#print axioms {n}\n' for n in names)
with tempfile.NamedTemporaryFile('w', suffix='.lean', delete=False) as f:
    f.write(src)
out = subprocess.run(['lake', 'env', 'lean', f.name], cwd=f'{root}/lean', capture_output=True, text=True).stdout
os.unlink(f.name)
out = re.sub(r'\n\s+', ' ', out)
rows = []
for line in out.splitlines():
    m = re.match(r".*?'(\S+)' depends on axioms: \[(.*)\]", line)
    if m: rows.append((m.group(1), m.group(2)))
    else:
        m = re.match(r".*?'(\S+)' does not depend on any axioms", line)
        if m: rows.append((m.group(1), 'none'))
        else: raise SystemExit('unexpected: ' + line)
assert len(rows) == len(names)
with open(f'{root}/AXIOMS.txt', 'w') as f:
    for n, a in rows: f.write(f'{n}: {a}\n')
print(len(rows), sorted(set(x.strip() for _, a in rows for x in a.split(','))))
