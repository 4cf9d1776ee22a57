"""Write axioms.txt: the axioms each theorem of the manifest depends on."""
import json, os, re, subprocess, tempfile
root = os.path.join(os.path.dirname(os.path.abspath(__file__)), '..')
m = json.load(open(os.path.join(root, 'MANIFEST.json')))
names = [t for c in m['claims'] for t in c['theorems']]
with tempfile.NamedTemporaryFile('w', suffix='.lean', delete=False) as f:
    f.write('import Verif\n' + ''.join(f'#print axioms {n}\n' for n in names))
out = subprocess.run(['lake', 'env', 'lean', f.name], cwd=os.path.join(root, 'lean'), capture_output=True, text=True).stdout
out = re.sub(r'\n\s+', ' ', out)
lines = [l.replace("'", '').replace(' depends on axioms: ', ': ').replace(' does not depend on any axioms', ': none') for l in out.splitlines() if l.strip()]
assert len(lines) == len(names), (len(lines), len(names))
open(os.path.join(root, 'axioms.txt'), 'w').write('\n'.join(lines) + '\n')
print(len(lines), sorted(set(l.split(': ')[1] for l in lines)))
