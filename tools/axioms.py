#!/usr/bin/env python3
"""Write AXIOMS.md: the axioms every theorem of MANIFEST.json depends on, as `#print axioms` reports them (after `lake build`)."""
import json, os, re, subprocess, tempfile
root = os.path.dirname(os.path.dirname(os.path.abspath(__file__)))
claims = json.load(open(os.path.join(root, 'MANIFEST.json')))['claims']
names = [t for c in claims for t in c['theorems']]
src = 'import Verif\n' + ''.join(f'#print axioms {n}\n' for n in names)
with tempfile.NamedTemporaryFile('w', suffix='.lean', delete=False) as f:
    f.write(src)
out = subprocess.run(['lake', 'env', 'lean', f.name], cwd=os.path.join(root, 'lean'), capture_output=True, text=True).stdout
os.unlink(f.name)
out = re.sub(r'\s+', ' ', out)
got = {}
for m in re.finditer(r"'([^']+(?:'[^ ]*)?)' (does not depend on any axioms|depends on axioms: \[([^\]]*)\])", out):
    got[m.group(1)] = m.group(3) or 'none'
missing = [n for n in names if n not in got]
with open(os.path.join(root, 'AXIOMS.md'), 'w') as f:
    f.write('# Axioms of the property theorems\n\nGenerated by `tools/axioms.py` from `#print axioms`.\n\n| Property | Theorem | Axioms |\n|---|---|---|\n')
    for c in claims:
        for t in c['theorems']:
            f.write(f"| {c['property']} | `{t}` | {got.get(t, '?')} |\n")
print(len(names), 'theorems,', len(missing), 'missing', missing[:5], sorted(set(got.values())))
