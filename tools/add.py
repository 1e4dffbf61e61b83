#!/usr/bin/env python3
"""add.py C01 status "thm1,thm2" "note" : insert or replace one claim in tools/claims.json."""
import json, sys, pathlib
f = pathlib.Path(__file__).resolve().parent / 'claims.json'
cl = json.loads(f.read_text()) if f.exists() else []
pid, st, th, note = sys.argv[1:5]
cl = [c for c in cl if c['property'] != pid]
cl.append({'property': pid, 'status': st, 'theorems': ['Verif.Props.' + t for t in th.split(',') if t], 'note': note})
cl.sort(key=lambda c: c['property'])
f.write_text(json.dumps(cl, indent=1, ensure_ascii=False) + '\n')
