#!/usr/bin/env python3
"""Regenerate MANIFEST.json: theorems are collected from lean/Verif/Props by their Cnn_ prefix,
status and notes come from tools/notes.json (default: proved; partial if a _partial/_refuted theorem exists)."""
import json, re
from pathlib import Path
root = Path(__file__).resolve().parent.parent
notes = json.loads((root / 'tools/notes.json').read_text())
ids = [json.loads(l)['id'] for l in (root / 'properties.jsonl').read_text().splitlines() if l.strip()]
thms = {i: [] for i in ids}
for f in sorted((root / 'lean/Verif/Props').rglob('*.lean')):
    ns = []
    for line in f.read_text().splitlines():
        m = re.match(r'\s*(?:protected |private )?theorem\s+((C\d\d+)_\S+)', line)
        if m:
            name = m.group(1)
            assert m.group(2) in thms, name
            thms[m.group(2)].append('Verif.' + name)
claims = []
for i in ids:
    n = notes.get(i, {})
    bad = any(t.endswith('_partial') or t.endswith('_refuted') for t in thms[i])
    status = n.get('status') or ('partial' if bad else 'proved')
    if not thms[i] and status == 'proved':
        continue
    claims.append({'property': i, 'status': status, 'theorems': thms[i], 'note': n.get('note', '')})
(root / 'MANIFEST.json').write_text(json.dumps({'claims': claims}, indent=1, ensure_ascii=False) + '\n')
print(len(claims), 'claims,', sum(len(c['theorems']) for c in claims), 'theorems; missing:', [i for i in ids if not thms[i]])
