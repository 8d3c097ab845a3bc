#!/usr/bin/env python3
"""Write MANIFEST.json from the theorem names found in lean/Verif/Props (every theorem named Cnn_* belongs to property Cnn)."""
import json, re, pathlib
root = pathlib.Path(__file__).resolve().parent.parent
names = {}
for f in sorted((root/'lean/Verif/Props').glob('*.lean')):
    ns = []
    for line in f.read_text().splitlines():
        m = re.match(r'namespace (\S+)', line)
        if m: ns.append(m.group(1))
        m = re.match(r'end (\S+)', line)
        if m and ns and ns[-1] == m.group(1): ns.pop()
        m = re.match(r'(?:protected )?theorem (C\d\d\d?_\w+)', line)
        if m: names.setdefault(m.group(1).split('_')[0], []).append('.'.join(ns + [m.group(1)]))
notes = json.loads((root/'tools/notes.json').read_text())
claims = []
for line in (root/'properties.jsonl').read_text().splitlines():
    pid = json.loads(line)['id']
    status, note = notes.get(pid, [None, ''])
    ths = names.get(pid, [])
    if status is None: continue
    claims.append({"property": pid, "status": status, "theorems": ths, "note": note})
(root/'MANIFEST.json').write_text(json.dumps({"claims": claims}, indent=1) + '\n')
print({c['property']: (c['status'], len(c['theorems'])) for c in claims})
