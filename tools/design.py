"""Rewrite the generated sections of DESIGN.md (results, axioms) from MANIFEST.json and the output of `#print axioms`."""
import json, re
P = '/verif/DESIGN.md'
src = open(P).read()
claims = json.load(open('/verif/MANIFEST.json'))['claims']
titles = {}
for l in open('/verif/properties.jsonl'):
    d = json.loads(l)
    titles[d['id']] = d['title']


def put(mark, text):
    global src
    a, b = f'<!-- {mark} -->', f'<!-- /{mark} -->'
    i, j = src.index(a) + len(a), src.index(b)
    src = src[:i] + '\n' + text + '\n' + src[j:]


rows = ['| id | property | status | theorems | what is missing or false of the code |', '|----|----|----|----|----|']
for c in claims:
    rows.append(f"| {c['property']} | {titles[c['property']]} | {c['status']} | {len(c['theorems'])} | {c['note'].replace('|', '/')} |")
put('results', '\n'.join(rows))

groups = {}
ax = re.sub(r'\n\s+', ' ', open('/tmp/w/ax.out').read())
for l in ax.splitlines():
    m = re.match(r"'Sampo\.(\S+)' depends on axioms: \[(.*)\]", l)
    if m:
        key = ', '.join(sorted(x.strip() for x in m.group(2).split(',')))
        groups.setdefault(key, []).append(m.group(1))
        continue
    m = re.match(r"'Sampo\.(\S+)' does not depend on any axioms", l)
    if m:
        groups.setdefault('no axioms', []).append(m.group(1))
out = []
for k in sorted(groups, key=lambda k: (k.count(','), k != 'no axioms', k)):
    by = {}
    for t in groups[k]:
        by.setdefault(t.split('.')[0], []).append(t.split('.', 1)[1])
    out.append(f'**{k}** ({len(groups[k])} theorems)\n')
    out += [f'* {p}: ' + ', '.join(f'`{t}`' for t in v) for p, v in sorted(by.items())]
    out.append('')
put('axioms', '\n'.join(out).rstrip())
open(P, 'w').write(src)
print('DESIGN.md:', {k: len(v) for k, v in groups.items()})
