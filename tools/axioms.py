"""Write AXIOMS.txt: the axioms every theorem of MANIFEST.json depends on (needs a finished build)."""
import json, re, subprocess, os, tempfile
root = os.path.dirname(os.path.dirname(os.path.abspath(__file__)))
ts = sorted({t for c in json.load(open(root + '/MANIFEST.json'))['claims'] for t in c['theorems']})
with tempfile.NamedTemporaryFile('w', suffix='.lean', delete=False) as h:
    h.write('import Verif\n' + ''.join(f'#print axioms {t}\n' for t in ts))
out = subprocess.run(['lake', 'env', 'lean', h.name], cwd=root + '/lean', capture_output=True, text=True).stdout
os.unlink(h.name)
res = {}
for m in re.finditer(r"'(\S+)' (?:depends on axioms: \[([^\]]*)\]|does not depend on any axioms)", out):
    res[m.group(1)] = ', '.join(x.strip() for x in m.group(2).split(',')) if m.group(2) else 'none'
missing = [t for t in ts if t not in res]
open(root + '/AXIOMS.txt', 'w').write(''.join(f'{t}: {res[t]}\n' for t in ts if t in res))
print(len(res), 'theorems; missing', missing, '; axioms', sorted({a for v in res.values() for a in v.split(', ')}))
