#!/usr/bin/env python3
"""Write the edits rejected in the automatic sweep (tools/sweep.py) to seeded/LOG.jsonl.

usage: sweep_log.py SWEEPLOG BASE DEPS
One line per edit of one line of the model: the first lemma that is rejected (the sweep stops there), and the property theorems that use it."""
import sys, re, json, os
lf, base, depsf = sys.argv[1:]
deps = {}
for l in open(depsf):
    w = l.split(); deps[w[0]] = set(w)

def decl(path, line):
    ns, last = [], None
    for i, l in enumerate(open(path), 1):
        if i > line: break
        m = re.match(r'namespace (\S+)', l)
        if m: ns.append(m.group(1))
        if re.match(r'(section|mutual)\b', l): ns.append(None)
        if re.match(r'end\b', l) and ns: ns.pop()
        m = re.match(r'(?:@\[[^\]]*\] )?(?:private |noncomputable )*(theorem|def|instance|structure|inductive|abbrev|example)\b ?([^\s:({\[]*)', l)
        if m and m.group(2): last = '.'.join([x for x in ns if x] + [m.group(2)])
    return last

log = '/verif/seeded/LOG.jsonl'
done = {json.loads(l)['id'] for l in open(log) if l.strip()}
n = 0
for k, l in enumerate(open(lf), 1):
    d = json.loads(l)
    id = 'A%04d' % k
    if d['v'] != 'killed' or id in done: continue
    p = f"{base}/Verif/Model/{d['f']}"
    L = open(p).read().split('\n')
    at = [j for j, x in enumerate(L) if x == d['old']]
    if not at: continue
    line = min(at, key=lambda j: abs(j - d['i'])) + 1
    wf, wl = d['w'].split(':')
    lem = decl(f'{base}/{wf}', int(wl))
    failed = sorted(t for t, ds in deps.items() if lem in ds)
    if not failed: continue
    rec = dict(id=id, definition=decl(p, line), edit=f"{d['kind']}: `{d['old'].strip()}` becomes " + ('nothing' if d['new'] is None else f"`{d['new'].strip()}`"),
               claim=failed[0].split('_')[0], breaks='claims ' + ' '.join(sorted({t.split('_')[0] for t in failed})[:12]),
               rejected_lemmas=[lem], theorems_failed=failed[:8], n_theorems_failed=len(failed), theorems_tightened=[],
               verdict='caught (automatic sweep; the build is stopped at the first lemma rejected)')
    with open(log, 'a') as fo: fo.write(json.dumps(rec, ensure_ascii=False) + '\n')
    n += 1
print(n)
