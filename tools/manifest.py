#!/usr/bin/env python3
"""Regenerate MANIFEST.json from the Cnn_ theorems in lean/Verif/Props and tools/status.json."""
import json, re, glob, os
root = os.path.dirname(os.path.dirname(os.path.abspath(__file__)))
thms = {}
for f in sorted(glob.glob(root + '/lean/Verif/Props/*.lean')):
    ns = []
    text = re.sub(r'/-.*?-/', '', open(f).read(), flags=re.S)
    for line in text.splitlines(True):
        m = re.match(r'(namespace|section|mutual|end)\b\s*(\S*)', line)
        if m:
            if m.group(1) == 'end':
                ns.pop()
            else:
                ns.append(m.group(2) if m.group(1) == 'namespace' else '')
        if line.startswith('noncomputable section'):
            ns.append('')
        m = re.match(r"theorem ((C\d\d+)_[A-Za-z0-9_']+)", line)
        if m:
            thms.setdefault(m.group(2), []).append('.'.join([n for n in ns if n] + [m.group(1)]))
status = json.load(open(root + '/tools/status.json'))
ids = [json.loads(l)['id'] for l in open(root + '/properties.jsonl')]
claims = []
for i in ids:
    st = status.get(i)
    if st is None and i not in thms:
        continue
    st = st or {}
    claims.append({'property': i, 'status': st.get('status', 'partial' if not st else 'proved'),
                   'theorems': thms.get(i, []), 'note': st.get('note', '')})
json.dump({'claims': claims}, open(root + '/MANIFEST.json', 'w'), indent=1)
print(len(claims), 'claims', sum(len(c['theorems']) for c in claims), 'theorems')
missing = [i for i in ids if i not in thms]
print('no theorems yet:', missing)
print('not in status.json:', [i for i in thms if i not in status])
