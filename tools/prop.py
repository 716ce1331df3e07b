"""Edit properties.jsonl: prop.py <json-file>; entries replace/append by id."""
import json, sys
P = [json.loads(l) for l in open('/verif/properties.jsonl')]
new = json.load(open(sys.argv[1]))
for n in new:
    for i, p in enumerate(P):
        if p['id'] == n['id']:
            P[i] = {**p, **n}
            break
    else:
        assert set(n) == {'id', 'title', 'statement', 'quantifier', 'why_tests_cant', 'anchors'}, n
        P.append(n)
P.sort(key=lambda p: int(p['id'][1:]))
open('/verif/properties.jsonl', 'w').write(''.join(json.dumps(p) + '\n' for p in P))
