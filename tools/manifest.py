#!/usr/bin/env python3
"""Regenerate MANIFEST.json: theorem names are collected from the Lean sources,
status and notes from notes.json."""
import json, re, glob, os
root = os.path.dirname(os.path.dirname(os.path.abspath(__file__)))
props = [json.loads(l)['id'] for l in open(root + '/properties.jsonl')]
notes = json.load(open(root + '/tools/notes.json'))
thms = {}
for f in sorted(glob.glob(root + '/lean/Verif/**/*.lean', recursive=True)):
    ns = []
    for line in open(f):
        m = re.match(r'namespace\s+(\S+)', line)
        if m: ns.append(m.group(1))
        m = re.match(r'end\s+(\S+)', line)
        if m and ns and ns[-1] == m.group(1): ns.pop()
        m = re.match(r'theorem\s+(C(\d+)_\S+)', line)
        if m: thms.setdefault('C%02d' % int(m.group(2)), []).append('.'.join(ns + [m.group(1)]))
claims = []
for p in props:
    t = thms.pop(p, [])
    n = notes.get(p, {})
    status = n.get('status')
    if status is None:
        if not t: continue
        status = 'partial' if any('_partial' in x or '_false' in x for x in t) else 'proved'
    claims.append(dict(property=p, status=status, theorems=t, note=n.get('note', '')))
assert not thms, thms
json.dump(dict(claims=claims), open(root + '/MANIFEST.json', 'w'), indent=1)
print({s: sum(c['status'] == s for c in claims) for s in ('proved', 'partial', 'not_applicable')},
      'missing', [p for p in props if p not in {c['property'] for c in claims}])
