#!/usr/bin/env python3
"""Regenerates AXIOMS.md: what `#print axioms` says about every theorem named in MANIFEST.json (run after `lake build`)."""
import json, re, subprocess, collections, os, tempfile
root = os.path.dirname(os.path.dirname(os.path.abspath(__file__)))
m = json.load(open(root + '/MANIFEST.json'))
ths = [(c['property'], t) for c in m['claims'] for t in c['theorems']]
f = tempfile.NamedTemporaryFile('w', suffix='.lean', delete=False)
f.write("import Verif\n" + "\n".join(f"#print axioms {t}" for _, t in ths) + "\n"); f.close()
out = subprocess.run(['lake', 'env', 'lean', f.name], cwd=root + '/lean', capture_output=True, text=True).stdout.replace('\n ', ' ')
ax = {}
for x in re.finditer(r"'([^']+)' (depends on axioms: \[([^\]]*)\]|does not depend on any axioms)", out):
    ax[x[1]] = ' '.join((x[3] or 'none').split())
short = {'propext': 'P', 'Classical.choice': 'C', 'Quot.sound': 'Q'}
with open(root + '/AXIOMS.md', 'w') as o:
    o.write("# Axioms used by the theorems in MANIFEST.json\n\nGenerated by tools/axioms.py from `#print axioms`. P = propext, C = Classical.choice, Q = Quot.sound "
            "(Lean's three standard axioms); - = none. No other axiom occurs.\n\n| property | theorem | axioms |\n|---|---|---|\n")
    for p, t in ths:
        a = ax[t]
        s = '-' if a == 'none' else ' '.join(short[y.strip()] for y in a.split(','))
        o.write(f"| {p} | {t.replace('Verif.Props.', '')} | {s} |\n")
print(len(ths), collections.Counter(ax.values()))
