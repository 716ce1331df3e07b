"""Regenerate MANIFEST.json from Verif/Props/C*.lean (public theorems) and tools/notes.json."""
import json, re, glob, os
notes = json.load(open('/verif/tools/notes.json'))
props = [json.loads(l)['id'] for l in open('/verif/properties.jsonl')]
thms = {}
for f in sorted(glob.glob('/verif/lean/Verif/Props/C*.lean')):
    pid = os.path.basename(f).split('_')[0]
    src = open(f).read()
    ns = re.search(r'^namespace (\S+)', src, re.M).group(1)
    assert ns == f'Sampo.{pid}', f
    names = re.findall(r'^theorem (\S+)', src, re.M)
    thms.setdefault(pid, []).extend(f'{ns}.{n}' for n in names)
claims = []
for pid in props:
    n = notes.get(pid, {})
    if pid in thms:
        st = n.get('status', 'proved')
        claims.append(dict(property=pid, status=st, theorems=thms[pid], note=n.get('note', '')))
    elif n.get('status') == 'not_applicable':
        claims.append(dict(property=pid, status='not_applicable', theorems=[], note=n['note']))
    else:
        print('no theorems yet:', pid)
json.dump(dict(claims=claims), open('/verif/MANIFEST.json', 'w'), indent=1)
print(len(claims), 'claims')
with open('/tmp/w/axioms.lean', 'w') as o:
    o.write('import Verif\n' + ''.join(f'#print axioms {t}\n' for c in claims for t in c['theorems']))
