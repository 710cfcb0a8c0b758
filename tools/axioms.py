#!/usr/bin/env python3
"""Write AXIOMS.txt: the axioms of every theorem named in MANIFEST.json (run after `lake build`)."""
import json, subprocess, re
M = json.load(open('/verif/MANIFEST.json'))['claims']
ts = [t for c in M for t in c['theorems']]
open('/tmp/ax.lean', 'w').write('import Verif\n' + ''.join(f'#print axioms {t}\n' for t in ts))
out = subprocess.run(['lake', 'env', 'lean', '/tmp/ax.lean'], cwd='/verif/lean', capture_output=True, text=True).stdout
out = re.sub(r'\n\s+', ' ', out)
open('/verif/AXIOMS.txt', 'w').write(out)
print(len(ts), 'theorems;', {a for l in out.splitlines() if '[' in l for a in re.findall(r'\[(.*)\]', l)[0].split(', ')})
