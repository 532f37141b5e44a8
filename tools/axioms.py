#!/usr/bin/env python3
"""Ask Lean for the axioms of every theorem in MANIFEST.json and write AXIOMS.md (run after `lake build`)."""
import json, subprocess, re, collections, pathlib
root = pathlib.Path(__file__).resolve().parent.parent
claims = json.load(open(root/'MANIFEST.json'))['claims']
names = [t for c in claims for t in c['theorems']]
f = pathlib.Path('/tmp/ax.lean')
f.write_text('import Verif\n' + '\n'.join('#print axioms ' + n for n in names) + '\n')
out = subprocess.run(['lake', 'env', 'lean', str(f)], cwd=root/'lean', capture_output=True, text=True).stdout
out = re.sub(r'\n\s+', ' ', out)
ax = {}
for line in out.splitlines():
    m = re.match(r".*'(\S+)' depends on axioms: \[(.*)\]", line)
    if m: ax[m.group(1)] = tuple(sorted(x.strip() for x in m.group(2).split(',')))
    m = re.match(r".*'(\S+)' does not depend on any axioms", line)
    if m: ax[m.group(1)] = ()
missing = [n for n in names if n not in ax]
bad = [n for n in names if set(ax.get(n, ())) - {'propext', 'Classical.choice', 'Quot.sound'}]
with open(root/'AXIOMS.md', 'w') as o:
    o.write('# Axioms per theorem\n\nGenerated by `tools/axioms.py` with `#print axioms`. P = `propext`, C = `Classical.choice`, Q = `Quot.sound`; '
            '"-" means that the theorem depends on no axiom.\n\n| theorem | axioms |\n|---|---|\n')
    for n in names:
        a = ax.get(n)
        s = '?' if a is None else ' '.join({'propext': 'P', 'Classical.choice': 'C', 'Quot.sound': 'Q'}.get(x, x) for x in a) or '-'
        o.write(f'| `{n}` | {s} |\n')
print(len(names), 'theorems; missing', missing, 'bad', bad)
