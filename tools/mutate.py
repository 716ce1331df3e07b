"""Seeded bugs: mutate.py <mutations.json>.  Each mutation {file, def, old, new, claim, edit} is applied to a scratch copy of
the Lean project in /tmp/mut/lean, the copy is rebuilt, and the failing theorems are appended to seeded/LOG.jsonl."""
import json, os, re, subprocess, sys
SRC, DST = '/verif/lean', '/tmp/mut/lean'
def sh(c): return subprocess.run(c, shell=True, capture_output=True, text=True)
sh(f'mkdir -p {DST} && rsync -a --delete {SRC}/ {DST}/ || (rm -rf {DST} && cp -a {SRC} {DST})')
dry = '--dry' in sys.argv
def enclosing(path, line):
    name = None
    for i, l in enumerate(open(path), 1):
        if i > line: break
        m = re.match(r'(?:private )?(?:theorem|def|example|instance)\s*(\S*)', l)
        if m: name = m.group(1) if m.group(1) not in (':', '') else f'example@{i}'
    return name
def imports():
    g = {}
    for r, _, fs in os.walk(f'{DST}/Verif'):
        for f in fs:
            if f.endswith('.lean'):
                mod = os.path.relpath(os.path.join(r, f), DST)[:-5].replace('/', '.')
                g[mod] = re.findall(r'^import (Verif\S*)', open(os.path.join(r, f)).read(), re.M)
    return g
for m in json.load(open(sys.argv[1])):
    p = f'{DST}/{m["file"]}'
    orig = open(p).read()
    assert orig.count(m['old']) >= 1, ('not found', m)
    s = orig.replace(m['old'], m['new'], 1) if not m.get('all') else orig.replace(m['old'], m['new'])
    open(p, 'w').write(s)
    out = sh(f'cd {DST} && lake build 2>&1').stdout
    failed, badmods = [], set()
    for f, l in re.findall(r'^error: (Verif/\S+?\.lean):(\d+):', out, re.M):
        n = enclosing(f'{DST}/{f}', int(l))
        mod = f[:-5].replace('/', '.')
        badmods.add(mod)
        e = f'{mod}:{n}'
        if e not in failed: failed.append(e)
    for mod in re.findall(r'^✖ \S+ Building (\S+)', out, re.M):
        if mod not in badmods and 'exited with code' in out:
            badmods.add(mod); failed.append(f'{mod}:killed')
    g = imports()
    blocked = set(badmods)
    while True:
        new = {a for a, b in g.items() if a not in blocked and any(x in blocked for x in b)}
        if not new: break
        blocked |= new
    blockedp = sorted(x for x in blocked - badmods if '.Props.' in x)
    open(p, 'w').write(orig)
    rec = dict(definition=m['def'], edit=m['edit'], claim_broken=m['claim'], theorems_failed=failed,
               modules_blocked=blockedp, tightened=m.get('tightened', []))
    if m.get('note'): rec['note'] = m['note']
    print(m['def'], '|', m['edit'], '\n   ->', len(failed), failed[:8], 'blocked', [b.split('.')[-1] for b in blockedp])
    if not dry:
        open('/verif/seeded/LOG.jsonl', 'a').write(json.dumps(rec) + '\n')
