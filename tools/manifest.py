#!/usr/bin/env python3
"""Regenerates MANIFEST.json and lean/Verif/Audit.lean from tools/claims.json."""
import json, pathlib
root = pathlib.Path(__file__).resolve().parent.parent
claims = json.loads((root / 'tools/claims.json').read_text())
(root / 'MANIFEST.json').write_text(json.dumps({'claims': claims}, indent=1, ensure_ascii=False) + '\n')
props = sorted(p.stem for p in (root / 'lean/Verif/Props').glob('*.lean'))
out = [f'import Verif.Props.{p}' for p in props]
out.append('/-! Axioms of every theorem named in MANIFEST.json (generated by tools/manifest.py). -/')
for c in claims:
    for t in c['theorems']:
        out.append(f'#print axioms {t}')
(root / 'lean/Verif/Audit.lean').write_text('\n'.join(out) + '\n')
(root / 'lean/Verif.lean').write_text('\n'.join(f'import Verif.Props.{p}' for p in props) + '\nimport Verif.Audit\n')
ids = [json.loads(l)['id'] for l in (root / 'properties.jsonl').read_text().splitlines() if l.strip()]
missing = [i for i in ids if i not in {c['property'] for c in claims}]
print('missing:', missing)
