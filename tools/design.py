"""Writes DESIGN.md from tools/design_head.md, tools/plan.json, properties.jsonl, MANIFEST.json,
tools/design_defects.md and tools/axioms.txt (output of tools/axioms.sh)."""
import json, os, re
root = os.path.dirname(os.path.dirname(os.path.abspath(__file__)))
rd = lambda p: open(os.path.join(root, p)).read()
plan = json.loads(rd('tools/plan.json'))
props = [json.loads(l) for l in rd('properties.jsonl').splitlines() if l.strip()]
claims = {c['property']: c for c in json.loads(rd('MANIFEST.json'))['claims']}
where = {}
for f in sorted(os.listdir(os.path.join(root, 'lean/Verif/Props'))):
    s = rd('lean/Verif/Props/' + f)
    for t in re.findall(r'^theorem (C\d+_\w+)', s, re.M):
        where.setdefault(t.split('_')[0], []).append((f, t))
imports = {}
for d in ('Model', 'Spec', 'Lemmas', 'Props'):
    for f in os.listdir(os.path.join(root, 'lean/Verif', d)):
        imports['Verif.%s.%s' % (d, f[:-5])] = re.findall(r'^import (Verif\S+)', rd('lean/Verif/%s/%s' % (d, f)), re.M)
out = [rd('tools/design_head.md').rstrip(), '', '## Properties', '',
       'For each property: what is modelled and how it is proved, the files, the theorems, and the result.', '']
for p in props:
    i = p['id']; c = claims.get(i)
    out.append('* **%s %s** (%s). %s' % (i, p['title'], c['status'] if c else 'open', plan.get(i, '')))
    if c:
        fs = sorted({f for f, _ in where[i]})
        out.append('  Result: %s' % c['note'])
        out.append('  Theorems in `Props/%s`: %s.' % ('`, `Props/'.join(fs), ', '.join('`%s`' % t for _, t in where[i])))
out += ['', rd('tools/design_defects.md').rstrip(), '']
ax = {}
for l in rd('tools/axioms.txt').splitlines():
    n, a = l.split('\t')
    ax.setdefault(a, []).append(n)
out += ['## Axioms each theorem depends on', '',
        'Computed with `Lean.collectAxioms` over every theorem of the manifest (`tools/axioms.sh`). No theorem depends on anything else.', '']
for a in sorted(ax, key=lambda a: (a.count(','), a)):
    out.append('* %s (%d theorems): %s' % (a or 'no axioms', len(ax[a]), ', '.join(ax[a])))
open(os.path.join(root, 'DESIGN.md'), 'w').write('\n'.join(out) + '\n')
