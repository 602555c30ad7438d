"""Writes COVERAGE.md (which lines of the sources are cited by which model file), STATUS.md (status and note per property)
and, with --axioms, axioms.txt (axioms per manifest theorem)."""
import glob, json, os, re, subprocess, sys

root = os.path.dirname(os.path.abspath(__file__))
repo = '/repo'
cites = {}
for f in sorted(glob.glob(root + '/lean/Verif/Model/*.lean')):
    t = open(f).read()
    name = os.path.basename(f)[:-5]
    for m in re.finditer(r'(source/[\w/.\-]+\.(?:cc|h|m4|f|i|C))((?::\d+(?:-\d+)?(?:,\s*\d+(?:-\d+)?)*)?)', t):
        path, rng = m.group(1), m.group(2)
        e = cites.setdefault(path, {'mods': set(), 'lines': set()})
        e['mods'].add(name)
        for a, b in re.findall(r'(\d+)(?:-(\d+))?', rng):
            a = int(a); b = int(b or a)
            e['lines'] |= set(range(a, b + 1))
out = ['# Source lines cited by the model', '',
       'Generated by `gen_coverage.py`.  Lines that are not listed are not modelled.', '',
       '| Source file | lines | cited | ranges | model files |', '|---|---|---|---|---|']

def ranges(s):
    r = []; s = sorted(s)
    for x in s:
        if r and x == r[-1][1] + 1: r[-1][1] = x
        else: r.append([x, x])
    return ', '.join(f'{a}-{b}' if a < b else str(a) for a, b in r)

for p in sorted(cites):
    n = sum(1 for _ in open(os.path.join(repo, p), errors='replace')) if os.path.exists(os.path.join(repo, p)) else 0
    ls = {x for x in cites[p]['lines'] if x <= n}
    out.append(f"| {p} | {n} | {len(ls)} | {ranges(ls)} | {', '.join(sorted(cites[p]['mods']))} |")
open(root + '/COVERAGE.md', 'w').write('\n'.join(out) + '\n')

props = [json.loads(l) for l in open(root + '/properties.jsonl')]
M = {c['property']: c for c in json.load(open(root + '/MANIFEST.json'))['claims']}
out = ['# Status per property', '', 'Generated by `gen_coverage.py`.  `violations` counts the theorems stating that, and exactly where, the code',
       'does not have the property.', '', '| Id | Property | status | theorems | violations | remarks |', '|---|---|---|---|---|---|']
for p in props:
    c = M[p['id']]
    v = [t for t in c['theorems'] if '_violation' in t]
    out.append(f"| {p['id']} | {p['title']} | {c['status']} | {len(c['theorems'])} | {len(v)} | {c.get('note', '').replace('|', '/')} |")
open(root + '/STATUS.md', 'w').write('\n'.join(out) + '\n')

if len(sys.argv) > 1 and sys.argv[1] == '--axioms':
    M = json.load(open(root + '/MANIFEST.json'))
    names = []
    for c in M['claims']:
        for t in c['theorems']:
            if t not in names: names.append(t)
    src = 'import Verif\n' + ''.join(f'#print axioms {t}\n' for t in names)
    open('/tmp/ax.lean', 'w').write(src)
    r = subprocess.run(['lake', 'env', 'lean', '/tmp/ax.lean'], cwd=root + '/lean', capture_output=True, text=True)
    txt = re.sub(r',\n\s+', ', ', r.stdout)
    lines = []
    for l in txt.splitlines():
        m = re.search(r"'(.+?)' (depends on axioms: \[.*\]|does not depend on any axioms)", l)
        if m: lines.append(m.group(1) + ': ' + m.group(2).replace('depends on axioms: ', '').replace('does not depend on any axioms', '[]'))
    open(root + '/axioms.txt', 'w').write('\n'.join(lines) + '\n')
    print(len(names), len(lines))
    bad = [l for l in lines if set(re.findall(r'[\w.]+', l.split(': ')[1])) - {'propext', 'Classical.choice', 'Quot.sound'}]
    print('other axioms:', bad)
