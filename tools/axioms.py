"""Writes AXIOMS.md: the axioms that each theorem of MANIFEST.json depends on, as Lean prints them (run after `lake build`)."""
import json, subprocess, re, os, tempfile
root = os.path.dirname(os.path.dirname(os.path.abspath(__file__)))
claims = json.load(open(root + '/MANIFEST.json'))['claims']
ts = list(dict.fromkeys(t for c in claims for t in c['theorems']))
with tempfile.NamedTemporaryFile('w', suffix='.lean', delete=False) as f:
    f.write('import Verif\n' + '\n'.join('#print axioms ' + (t if t.startswith('Tarski.') else 'Tarski.' + t) for t in ts))
out = subprocess.run(['lake', 'env', 'lean', f.name], cwd=root + '/lean', capture_output=True, text=True).stdout
groups = {}
for name, rest in re.findall(r"'Tarski\.([^\s]+?)' (does not depend on any axioms|depends on axioms: \[[^\]]*\])", out):
    key = '' if rest.startswith('does') else ', '.join(x.strip() for x in rest[rest.index('[') + 1:-1].split(','))
    groups.setdefault(key, []).append(name)
assert sum(map(len, groups.values())) == len(ts), (len(ts), {k: len(v) for k, v in groups.items()})
with open(root + '/AXIOMS.md', 'w') as f:
    f.write('# Axioms of the theorems named in MANIFEST.json\n\nMade by `tools/axioms.py` with `#print axioms`.\n')
    for k, v in sorted(groups.items()):
        f.write('\n## ' + (k or 'no axioms') + ' (%d theorems)\n\n' % len(v) + ', '.join(sorted(v)) + '\n')
