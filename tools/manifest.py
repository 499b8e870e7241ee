"""Regenerate MANIFEST.json from the theorem names in lean/Verif and notes.json.

A theorem is attached to property Cnn when its name starts with Cnn_ (or
Cnn_Cmm_, which attaches it to both)."""
import json, re, glob, os
root = os.path.dirname(os.path.dirname(os.path.abspath(__file__)))
notes = json.load(open(os.path.join(root, 'tools', 'notes.json')))
props = [json.loads(l) for l in open(os.path.join(root, 'properties.jsonl')) if l.strip()]
thms = {}
for f in sorted(glob.glob(os.path.join(root, 'lean/Verif/**/*.lean'), recursive=True)):
    ns = []
    for line in open(f):
        m = re.match(r'namespace\s+(\S+)', line)
        if m: ns.append(m.group(1))
        m = re.match(r'end\s+(\S+)', line)
        if m and ns and ns[-1] == m.group(1): ns.pop()
        m = re.match(r'(?:omit .* in )?(?:@\[.*\]\s*)?theorem\s+(C\d\d+(?:_C\d\d+)*_\S+)', line)
        if m:
            name = m.group(1).rstrip(':')
            for c in re.match(r'(C\d\d+(?:_C\d\d+)*)_', name).group(1).split('_'):
                thms.setdefault(c, []).append('.'.join(ns + [name]))
claims = []
for c, n in notes.items():   # 'also': theorems listed under another property as well
    for name in n.get('also', []):
        full = [t for v in thms.values() for t in v if t.split('.')[-1] == name]
        assert full, name
        for t in full:
            if t not in thms.setdefault(c, []): thms[c].append(t)
for p in props:
    c = p['id']; n = notes.get(c, {})
    if c not in thms and 'status' not in n: continue
    claims.append({'property': c, 'status': n.get('status', 'proved'),
                   'theorems': thms.get(c, []), 'note': n.get('note', '')})
json.dump({'claims': claims}, open(os.path.join(root, 'MANIFEST.json'), 'w'), indent=1)
missing = [p['id'] for p in props if p['id'] not in {x['property'] for x in claims}]
print(len(claims), 'claims; missing', missing)
unk = [c for c in thms if c not in {p['id'] for p in props}]
print('unknown ids', unk, 'theorems', sum(len(v) for v in thms.values()))
