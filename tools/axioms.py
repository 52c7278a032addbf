#!/usr/bin/env python3
"""Print the axioms of every theorem named in MANIFEST.json, grouped (run in /verif/lean after `lake build`)."""
import json, re, subprocess, tempfile, os
root = os.path.dirname(os.path.dirname(os.path.abspath(__file__)))
names = [t for c in json.load(open(root + '/MANIFEST.json'))['claims'] for t in c['theorems']]
with tempfile.NamedTemporaryFile('w', suffix='.lean', delete=False) as f:
    f.write('import Verif\n' + ''.join('#print axioms %s\n' % n for n in names))
out = subprocess.run(['lake', 'env', 'lean', f.name], cwd=root + '/lean', capture_output=True, text=True).stdout
groups = {}
for n, ax in re.findall(r"'([^']+)' depends on axioms: \[([^\]]*)\]", out.replace('\n ', ' ')): groups.setdefault(', '.join(sorted(a.strip() for a in ax.split(','))), []).append(n)
for n in re.findall(r"'([^']+)' does not depend on any axioms", out): groups.setdefault('none', []).append(n)
assert sum(map(len, groups.values())) == len(names), (len(names), out[-500:])
for g in sorted(groups, key=lambda g: len(groups[g])):
    print('* **%s** (%d theorems): %s' % (g, len(groups[g]), ', '.join('`%s`' % n.split('.')[-1] for n in groups[g])))
