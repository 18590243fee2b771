#!/usr/bin/env python3
"""Write AXIOMS.md: for every theorem named in MANIFEST.json, the axioms it depends on and
whether it assumes the laws of the primitives (`Prims.Laws`). Needs a finished `lake build`."""
import json, os, subprocess, tempfile
here = os.path.dirname(os.path.abspath(__file__))
claims = json.load(open(os.path.join(here, 'MANIFEST.json')))['claims']
names = [t for c in claims for t in c['theorems']]
src = 'import Verif\nimport Lean\nopen Lean Elab Command in\nrun_cmd do\n  for n in [' + \
  ', '.join('`' + n for n in names) + '''] do
    let some ci := (← getEnv).find? n | throwError "missing {n}"
    let axs ← collectAxioms n
    let laws := (ci.type.getUsedConstants.contains `Pasta.Prims.Laws)
    IO.println s!"{n}|{", ".intercalate ((axs.map toString).qsort (· < ·)).toList}|{if laws then "yes" else ""}"
'''
with tempfile.NamedTemporaryFile('w', suffix='.lean', delete=False) as f:
    f.write(src)
out = subprocess.run(['lake', 'env', 'lean', f.name], cwd=os.path.join(here, 'lean'),
                     capture_output=True, text=True)
os.unlink(f.name)
if out.returncode: raise SystemExit(out.stdout + out.stderr)
rows = [l.split('|') for l in out.stdout.splitlines() if l.startswith('Pasta.')]
assert len(rows) == len(names), (len(rows), len(names))
with open(os.path.join(here, 'AXIOMS.md'), 'w') as f:
    f.write('# Axioms of each theorem\n\nWritten by `mkaxioms.py` from the compiled project. "laws" marks the theorems whose\nstatement mentions `Prims.Laws`, the algebraic laws assumed of the primitives.\n\n')
    f.write('| theorem | axioms | laws |\n|---|---|---|\n')
    for n, a, l in rows: f.write(f'| `{n[6:]}` | {a or "none"} | {l} |\n')
from collections import Counter
print(Counter(r[1] for r in rows), Counter(r[2] for r in rows))
