#!/usr/bin/env python3
"""Writes section 4 of DESIGN.md from the doc comments of the theorems that show a property to fail."""
import re, glob, os
root = os.path.dirname(os.path.dirname(os.path.abspath(__file__)))
rows = []
for f in sorted(glob.glob(root + '/lean/Verif/**/*.lean', recursive=True)):
    s = open(f).read()
    for m in re.finditer(r'(?:/--((?:(?!-/).)*)-/\s*)?(?:@\[[^\]]*\]\s*)?theorem\s+(C\d+_\w*(?:violated|finding|aborts|begin_at_ub))\b', s, re.S):
        doc = ' '.join((m.group(1) or '').split())
        rows.append((m.group(2).split('_')[0], m.group(2), doc, os.path.relpath(f, root + '/lean/Verif')))
rows.sort(key=lambda r: (int(r[0][1:]), r[1]))
out = ['## 4. Findings (places where the code violates the property)', '',
       'Each line is a theorem with a concrete witness (or a general statement) that the', 'property fails for the code as modelled.  Generated by `tools/gen_findings.py` from',
       'the comments of the theorems.', '']
cur = None
for c, n, d, f in rows:
    out.append(f'* **{c}** `{n}` ({f}): {d}')
p = root + '/DESIGN.md'
s = open(p).read()
i = s.index('## 4. Findings')
open(p, 'w').write(s[:i] + '\n'.join(out) + '\n')
print(len(rows), 'findings;', sum(1 for r in rows if not r[2]), 'without comment')
for r in rows:
    if not r[2]: print(r[1], r[3])
