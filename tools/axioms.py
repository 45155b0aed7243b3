#!/usr/bin/env python3
"""Write AXIOMS.txt: the axioms every property theorem depends on (needs a finished build in lean/)."""
import glob, os, re, subprocess, tempfile
root = os.path.dirname(os.path.dirname(os.path.abspath(__file__)))
names = []
for f in sorted(glob.glob(root + '/lean/Verif/Props/*.lean')):
    ns = []
    for line in open(f):
        m = re.match(r'namespace (\S+)', line)
        if m: ns.append(m.group(1))
        m = re.match(r'end (\S+)', line)
        if m and ns and ns[-1] == m.group(1): ns.pop()
        m = re.match(r"(?:@\[.*\] )?theorem (C\d\d+_[\w']+)", line)
        if m: names.append('.'.join(ns + [m.group(1)]))
names.sort(key=lambda n: n.split('.')[-1])
with tempfile.NamedTemporaryFile('w', suffix='.lean', delete=False) as t:
    t.write('import Verif\n' + ''.join('#print axioms %s\n' % n for n in names))
out = subprocess.run(['lake', 'env', 'lean', t.name], cwd=root + '/lean', capture_output=True, text=True).stdout
out = re.sub(r'\n\s+', ' ', out)
res = {}
for line in out.splitlines():
    m = re.search(r"'(\S+)' depends on axioms: \[(.*)\]", line)
    if m: res[m.group(1)] = m.group(2)
    m = re.search(r"'(\S+)' does not depend on any axioms", line)
    if m: res[m.group(1)] = 'none'
with open(root + '/AXIOMS.txt', 'w') as f:
    for n in names:
        f.write('%s: %s\n' % (n, res.get(n, '?')))
print(len(names), 'theorems', sorted(set(res.values())), [n for n in names if n not in res])
