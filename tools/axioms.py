"""Writes the list of axioms per theorem into DESIGN.md (between the markers). Run after `lake build`."""
import collections, glob, os, re, subprocess, tempfile
root = os.path.dirname(os.path.dirname(os.path.abspath(__file__)))
names = []
for f in sorted(glob.glob(root + '/lean/Verif/Props/*.lean')):
    names += re.findall(r'^theorem (C\d+_\w+)', open(f).read(), re.M)
src = 'import Verif\n' + ''.join(f'#print axioms Cniic.{n}\n' for n in names)
with tempfile.NamedTemporaryFile('w', suffix='.lean', delete=False) as t:
    t.write(src)
out = subprocess.run(['lake', 'env', 'lean', t.name], cwd=root + '/lean', capture_output=True, text=True).stdout
os.unlink(t.name)
out = re.sub(r'\n\s+', ' ', out)
groups = collections.defaultdict(list)
for line in out.split('\n'):
    m = re.match(r"'Cniic\.(C\d+_\w+)' (.*)", line)
    if m:
        a = re.search(r'\[(.*)\]', m.group(2))
        groups[a.group(1) if a else 'none'].append(m.group(1))
seen = sum(groups.values(), [])
assert sorted(seen) == sorted(names), set(names) - set(seen)
text = []
for k in sorted(groups, key=lambda k: -len(k)):
    ths = groups[k]
    if k.count(',') == 2:
        text.append(f'* `{k}`: all {len(ths)} theorems `C…` not listed below.')
    else:
        text.append(f'* `{k}`: ' + ', '.join(f'`{t}`' for t in sorted(ths)) + '.')
p = root + '/DESIGN.md'
s = open(p).read()
a, b = '<!-- axioms -->\n', '<!-- /axioms -->'
i, j = s.index(a) + len(a), s.index(b)
open(p, 'w').write(s[:i] + '\n'.join(text) + '\n' + s[j:])
print(len(names), 'theorems')
