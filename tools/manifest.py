#!/usr/bin/env python3
"""Write MANIFEST.json: collect the theorems named C.._ in lean/Verif/Props and attach status and notes."""
import json, re, glob, os
from manifest_notes import NOTES
root = os.path.dirname(os.path.dirname(os.path.abspath(__file__)))
thms = {}
for f in sorted(glob.glob(root + '/lean/Verif/Props/**/*.lean', recursive=True)):
    ns = []
    incomment = 0
    for line in open(f):
        if '/-' in line: incomment += line.count('/-')
        was = incomment
        if '-/' in line: incomment -= line.count('-/')
        if was: continue
        m = re.match(r'namespace (\S+)', line)
        if m: ns.append(m.group(1))
        m = re.match(r'end (\S+)', line)
        if m and ns and ns[-1] == m.group(1): ns.pop()
        m = re.match(r'(?:@\[[^\]]*\] )?(?:private )?theorem ((C\d\d+)_\S+)', line)
        if m: thms.setdefault(m.group(2), []).append('.'.join(ns + [m.group(1)]))
claims = []
for l in open(root + '/properties.jsonl'):
    p = json.loads(l)['id']
    if p not in thms: continue
    st, note = NOTES.get(p, ('proved', ''))
    claims.append({"property": p, "status": st, "theorems": thms[p], "note": note})
json.dump({"claims": claims}, open(root + '/MANIFEST.json', 'w'), indent=1, ensure_ascii=False)
print(len(claims), 'claims', sum(len(c['theorems']) for c in claims), 'theorems;',
      'missing:', [json.loads(l)['id'] for l in open(root + '/properties.jsonl') if json.loads(l)['id'] not in thms])
