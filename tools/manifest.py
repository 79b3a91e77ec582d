"""Regenerates MANIFEST.json: collects theorems named Cnn_* with their namespaces; notes in tools/notes.json."""
import re, json, glob
names = {}
for f in sorted(glob.glob('/verif/lean/Verif/**/*.lean', recursive=True)):
    ns = []
    for line in open(f):
        m = re.match(r'namespace\s+(\S+)', line)
        if m: ns.append(('ns', m.group(1))); continue
        m = re.match(r'(?:noncomputable\s+)?section\b\s*(\S*)', line)
        if m: ns.append(('sec', m.group(1))); continue
        m = re.match(r'end\b\s*(\S*)', line)
        if m and ns and (ns[-1][1] == m.group(1)): ns.pop(); continue
        m = re.match(r'(?:@\[.*?\]\s*)?theorem\s+((C\d\d\d?)_\S+)', line)
        if m:
            q = '.'.join([n for k, n in ns if k == 'ns'] + [m.group(1)])
            names.setdefault(m.group(2), []).append(q)
notes = json.load(open('/verif/tools/notes.json'))
claims = []
for l in open('/verif/properties.jsonl'):
    pid = json.loads(l)['id']
    n = notes.get(pid, {})
    ths = names.get(pid, [])
    for t in n.get('also', []): ths.append(t)
    if not ths and n.get('status') != 'not_applicable': continue
    st = n.get('status') or ('partial' if any(('_partial' in t or '_refuted' in t) for t in ths) else 'proved')
    claims.append({'property': pid, 'status': st, 'theorems': ths, 'note': n.get('note', '')})
json.dump({'claims': claims}, open('/verif/MANIFEST.json', 'w'), indent=1, ensure_ascii=False)
print(len(claims), 'claims', sum(len(c['theorems']) for c in claims), 'theorems')
with open('/tmp/ax.lean', 'w') as g:
    g.write('import Verif\n')
    for c in claims:
        for t in c['theorems']: g.write(f'#print axioms {t}\n')
