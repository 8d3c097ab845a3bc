#!/usr/bin/env python3
"""Apply each mutant of tools/mutants.py to a scratch copy of the Lean project, rebuild, and log which theorems fail.

usage: mutate.py SCRATCH BASE DEPS [id ...]
SCRATCH and BASE are directories holding a copy of /verif/lean, the first one built; DEPS is the output of the dependency listing (one line per
property theorem: its name and all project constants its proof uses). A property theorem fails if it, or a lemma its proof
uses, is rejected."""
import sys, os, re, json, subprocess, shutil
sys.path.insert(0, os.path.dirname(__file__))
from mutants import MUTANTS
VER = '/verif'
scratch, base, depsf, ids = sys.argv[1], sys.argv[2], sys.argv[3], sys.argv[4:]
deps = {}
for l in open(depsf):
    w = l.split()
    deps[w[0]] = set(w)

def decls_at(path, line):
    """The declaration at a line; all those of its block if it is in a mutual block (their proofs are compiled together)."""
    ns, last, block, blocks = [], None, None, {}
    for i, l in enumerate(open(path), 1):
        m = re.match(r'namespace (\S+)', l)
        if m: ns.append(m.group(1))
        if re.match(r'section\b', l): ns.append(None)
        if re.match(r'mutual\b', l): ns.append(None); block = []
        if re.match(r'end\b', l) and ns:
            ns.pop(); block = None
        m = re.match(r'(?:@\[[^\]]*\] )?(?:private |noncomputable )*(theorem|def|instance|structure|inductive|abbrev|example)\b ?([^\s:({\[]*)', l)
        if m:
            n = m.group(2)
            full = '.'.join([x for x in ns if x] + [n]) if n else 'example@%s:%d' % (os.path.basename(path), i)
            if i <= line: last = full
            if block is not None: block.append(full); blocks[full] = block
    return blocks.get(last, [last]) if last else []

log = os.path.join(VER, 'seeded/LOG.jsonl')
done = set()
if os.path.exists(log):
    for l in open(log):
        if l.strip(): done.add(json.loads(l).get('id'))
for m in MUTANTS:
    if ids and m['id'] not in ids: continue
    if not ids and m['id'] in done: continue
    shutil.rmtree(f'{scratch}/Verif/Model')
    shutil.copytree(f'{base}/Verif/Model', f'{scratch}/Verif/Model')
    p = f"{scratch}/Verif/Model/{m['file']}.lean"
    s = open(p).read()
    k = s.count(m['old'])
    nth = m.get('nth', 0)
    if k == 0 or (k > 1 and 'nth' not in m):
        print(m['id'], 'BAD MUTANT: occurrences', k); continue
    i = -1
    for _ in range(nth + 1): i = s.index(m['old'], i + 1)
    s = s[:i] + m['new'] + s[i + len(m['old']):]
    open(p, 'w').write(s)
    r = subprocess.run(['lake', 'build'], cwd=scratch, capture_output=True, text=True)
    out = r.stdout + r.stderr
    errs = []
    for f, ln in re.findall(r'error: (Verif/\S+?\.lean):(\d+):\d+', out):
        for d in decls_at(f'{scratch}/{f}', int(ln)):
            if d not in errs: errs.append(d)
    modelerr = any(re.search(r'error: Verif/Model', l) for l in out.split('\n'))
    if m.get('expect_model_error') is None and modelerr:
        print(m['id'], 'MODEL DOES NOT COMPILE'); print(out[-1500:]); continue
    failed = sorted(t for t, ds in deps.items() if any(e in ds for e in errs))
    hit = [t for t in failed if t.startswith(m['claim'] + '_')]
    rec = dict(id=m['id'], definition=m['definition'], edit=m['edit'], claim=m['claim'], breaks=m['breaks'],
               rejected_lemmas=errs[:12], theorems_failed=hit + [t for t in failed if t not in hit][:12],
               n_theorems_failed=len(failed), theorems_tightened=[], verdict='caught' if hit else ('other' if failed or errs else 'SURVIVED'))
    print(m['id'], rec['verdict'], len(errs), 'lemmas', len(failed), 'theorems', errs[:4], flush=True)
    if hit:
        with open(log, 'a') as fo: fo.write(json.dumps(rec) + '\n')
    else:
        with open('/tmp/mut/pending.jsonl', 'a') as fo: fo.write(json.dumps(rec) + '\n')
