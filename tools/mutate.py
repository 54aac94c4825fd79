#!/usr/bin/env python3
"""Try wrong programs. Usage: mutate.py FILE [--log]
FILE holds JSON lines {"file", "definition", "old", "new", "edit", "claim", "targets"}: `old` is replaced by `new` (first
occurrence after the definition) in a scratch copy of lean/, `targets` are built, and the theorems whose proofs fail are
listed. "also" may list further edits {"file", "old", "new"}, for lemmas that spell out the cases of a definition, so
that the failures reported are those of the claims and their invariants. With --log a line is appended to /verif/seeded/LOG.jsonl. Mutants that still build are printed as SURVIVED."""
import json, os, re, subprocess, sys
SRC, DST = '/verif/lean', '/tmp/mut/lean'
def sh(c, cwd=None):
    return subprocess.run(c, shell=True, cwd=cwd, stdout=subprocess.PIPE, stderr=subprocess.STDOUT, text=True)
os.makedirs('/tmp/mut', exist_ok=True)
sh(f'rsync -a --delete {SRC}/ {DST}/') if sh('which rsync').returncode == 0 else sh(f'rm -rf {DST}; cp -a {SRC} {DST}')
log = '--log' in sys.argv
for line in open(sys.argv[1]):
    if not line.strip(): continue
    m = json.loads(line)
    p = f"{DST}/Verif/{m['file']}"
    orig = open(p).read()
    k = re.search(r'(def|theorem|inductive|structure|abbrev) ' + re.escape(m['definition']) + r'\b', orig)
    if not k: print('NO DEF', m['definition']); continue
    j = orig.find(m['old'], k.start())
    if j < 0: print('NO OLD', m['definition'], m['old']); continue
    open(p, 'w').write(orig[:j] + m['new'] + orig[j+len(m['old']):])
    saved = {}
    for x in m.get('also', []):
        q = f"{DST}/Verif/{x['file']}"
        if q not in saved: saved[q] = open(q).read()
        t = open(q).read()
        if x['old'] not in t: print('NO ALSO', x['old'])
        open(q, 'w').write(t.replace(x['old'], x['new'], 1))
    out = sh('lake build ' + (lambda t: ' '.join(t) if isinstance(t, list) else t)(m.get('targets', '')), DST).stdout
    failed = []
    for e in re.finditer(r'error: (\S+\.lean):(\d+):', out):
        f, n = e.group(1), int(e.group(2))
        L = open(f'{DST}/{f}').read().split('\n')
        for i in range(min(n, len(L)) - 1, -1, -1):
            t = re.match(r'(?:@\[[^\]]*\] )?(?:private )?(?:(?:noncomputable )?def|theorem|lemma|instance|example|structure|inductive)\b ?(\S*)', L[i])
            if t:
                nm = t.group(1) if t.group(1) not in (':', '') else 'example in ' + f
                if nm not in failed: failed.append(nm)
                break
    open(p, 'w').write(orig)
    for q, t in saved.items(): open(q, 'w').write(t)
    ok = 'Build completed successfully' in out
    print(('SURVIVED ' if ok else 'killed ') + m['definition'] + ': ' + m['edit'] + ' -> ' + ', '.join(failed[:8]), flush=True)
    if not ok and not failed: print(out[-1500:])
    if log:
        open('/verif/seeded/LOG.jsonl', 'a').write(json.dumps({
            'definition': m['definition'] + ' (' + m['file'] + ')', 'edit': m['edit'], 'claim': m['claim'],
            'failed': failed, 'tightened': m.get('tightened', [])}) + '\n')
