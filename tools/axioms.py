#!/usr/bin/env python3
"""Regenerate section 7 of DESIGN.md: the axioms of every theorem in MANIFEST.json.
Run after `lake build`; the scratch file goes to a temporary directory."""
import json, re, os, subprocess, tempfile
root = os.path.dirname(os.path.dirname(os.path.abspath(__file__)))
thms = [t for c in json.load(open(root + '/MANIFEST.json'))['claims'] for t in c['theorems']]
with tempfile.TemporaryDirectory() as d:
    f = d + '/axioms.lean'
    open(f, 'w').write('import Verif\n' + ''.join('#print axioms %s\n' % t for t in thms))
    out = subprocess.run(['lake', 'env', 'lean', f], cwd=root + '/lean', capture_output=True,
                         text=True).stdout
out = re.sub(r'\n\s+', ' ', out)
groups = {}
for line in out.splitlines():
    m = re.match(r"'(\S+)' (?:depends on axioms: \[(.*)\]|does not depend on any axioms)", line)
    if m:
        groups.setdefault(m.group(2) or 'none', []).append(m.group(1).split('.')[-1])
assert sum(map(len, groups.values())) == len(thms), (len(thms), out[:500])
text = ''
for g in sorted(groups, key=len):
    text += '%s: %s.\n\n' % (g if g == 'none' else '`' + g.replace(', ', '`, `') + '`', ', '.join(groups[g]))
p = root + '/DESIGN.md'
s = open(p).read()
i = s.index('## 7. Axioms per theorem')
open(p, 'w').write(s[:i] + '## 7. Axioms per theorem\n\n' + text)
print({g: len(v) for g, v in groups.items()})
