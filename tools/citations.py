#!/usr/bin/env python3
"""Check the line numbers cited in the model: every identifier in backquotes right before a citation
`(file.py:10-20)` should occur in these lines.  Prints the citations where it does not."""
import re, sys, pathlib, collections

REPO = pathlib.Path('/repo')
files = collections.defaultdict(list)
for p in REPO.rglob('*.py'):
    files[p.name].append(p)

def enclosing(ls, a):
    """The functions and classes around line a."""
    out, indent = [], 1000
    for l in reversed(ls[:a]):
        m = re.match(r'( *)(?:def|class) (\w+)', l)
        if l.strip() and len(l) - len(l.lstrip()) < indent:
            indent = len(l) - len(l.lstrip())
            if m:
                out.append(m.group(2))
    return out


bad = total = 0
for lean in sorted(pathlib.Path('/verif/lean/Verif').rglob('*.lean')):
    text = lean.read_text()
    for m in re.finditer(r'\(([^()]*?[a-z_0-9/]+\.py:[^()]*?)\)', text):
        body = m.group(1)
        before = text[max(0, m.start() - 200):m.start()]
        before = before[before.rfind('/--') + 3:] if '/--' in before else before
        idents = re.findall(r'`([^`]*)`', before)
        name = None
        cites = []
        for part in re.split(r'[,;]\s*', body):
            mm = re.search(r'([\w/]+\.py):(\d+)(?:-(\d+))?', part)
            if mm:
                name = mm.group(1)
                cites.append((name, int(mm.group(2)), int(mm.group(3) or mm.group(2))))
            else:
                mm = re.fullmatch(r'(?:and )?(\d+)(?:-(\d+))?', part.strip())
                if mm and name:
                    cites.append((name, int(mm.group(1)), int(mm.group(2) or mm.group(1))))
        if not cites:
            continue
        total += 1
        lines = ''
        for f, a, b in cites:
            cands = [p for p in files[pathlib.Path(f).name] if str(p).endswith(f)]
            if not cands:
                print(f'{lean.name}: no file {f}')
                bad += 1
            for p in cands:
                ls = p.read_text().splitlines()
                if b > len(ls) and len(cands) == 1:
                    print(f'{lean.name}: {f}:{a}-{b} beyond the end ({len(ls)})')
                lines += '\n'.join(ls[a - 1:b]) + '\n' + ' '.join(enclosing(ls, a)) + '\n'
        if idents:
            ident = re.split(r'[^\w]', idents[-1].split('(')[0].split('.')[-1].strip())
            ident = [x for x in ident if x]
            if ident and not any(x in lines for x in ident):
                ln = text[:m.start()].count('\n') + 1
                where = []
                for p in {q for f, _, _ in cites for q in files[pathlib.Path(f).name] if str(q).endswith(f)}:
                    for i, l in enumerate(p.read_text().splitlines(), 1):
                        if re.search(r'\b(def|class)\s+' + re.escape(ident[-1]) + r'\b', l):
                            where.append(i)
                print(f'{lean.name}:{ln}: {ident} not in {body}   defined at {where}')
                bad += 1
print(total, 'citations,', bad, 'doubtful', file=sys.stderr)
