"""Lists functions of /repo/sampo that no comment of the model cites.  Usage: coverage.py [--all]"""
import ast, pathlib, re, sys

REPO = pathlib.Path('/repo/sampo')
LEAN = pathlib.Path(__file__).resolve().parent.parent / 'lean' / 'Verif'
SKIP = ('native', 'visualization')

cites = []
for f in sorted(LEAN.rglob('*.lean')):
    text = f.read_text()
    default = None
    m = re.search(r'/-!(.*?)-/', text, re.S)
    if m:
        m = re.search(r'([\w/]+\.py)', m.group(1))
        default = m.group(1) if m else None
    for c in re.findall(r'/-[-!](.*?)-/', text, re.S):
        last = default
        for m in re.finditer(r'([\w/]+\.py)((?::|, lines? )\d[\d\-, ]*)?|lines? (\d[\d\-, ]*)', c):
            if m.group(1):
                last = m.group(1)
            nums = m.group(2) or m.group(3)
            if not nums:
                continue
            for r in re.findall(r'(\d+)(?:-(\d+))?', nums):
                cites.append((last, int(r[0]), int(r[1] or r[0])))

total = seen = 0
for f in sorted(REPO.rglob('*.py')):
    rel = str(f.relative_to(REPO.parent))
    if any(s in rel for s in SKIP):
        continue
    mine = [(a, b) for p, a, b in cites if p and rel.endswith('/' + p)]
    tree = ast.parse(f.read_text())
    out = []

    def visit(node, name):
        global total, seen
        for x in ast.iter_child_nodes(node):
            if isinstance(x, (ast.FunctionDef, ast.ClassDef)):
                n = f'{name}.{x.name}' if name else x.name
                if isinstance(x, ast.FunctionDef):
                    total += 1
                    a, b = x.lineno, x.end_lineno
                    if any(lo <= b and hi >= a for lo, hi in mine):
                        seen += 1
                        continue
                    out.append(f'{n}:{a}-{b}')
                else:
                    visit(x, n)

    visit(tree, '')
    if out:
        print(rel, ' '.join(out))
print(seen, 'of', total)
