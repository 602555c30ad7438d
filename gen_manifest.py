#!/usr/bin/env python3
"""Regenerate MANIFEST.json from the theorem names in lean/Verif/Props and notes.json."""
import json, re, glob, os
here = os.path.dirname(os.path.abspath(__file__))
props = [json.loads(l) for l in open(os.path.join(here, 'properties.jsonl')) if l.strip()]
notes = json.load(open(os.path.join(here, 'notes.json')))
thms = {}
for f in sorted(glob.glob(os.path.join(here, 'lean/Verif/Props/*.lean'))):
    ns = []
    for line in open(f):
        m = re.match(r'\s*namespace\s+(\S+)', line)
        if m: ns.append(m.group(1)); continue
        m = re.match(r'\s*end\s+(\S+)', line)
        if m and ns and ns[-1] == m.group(1): ns.pop(); continue
        m = re.match(r'\s*theorem\s+(c(\d\d+)_\w+)', line)
        if m: thms.setdefault('C' + m.group(2), []).append('.'.join(ns + [m.group(1)]))
claims = []
for p in props:
    i = p['id']; t = thms.get(i, []); n = notes.get(i, {})
    st = n.get('status') or ('proved' if t and not any(x.endswith('_partial') for x in t) else 'partial' if t else 'not_applicable')
    claims.append({'property': i, 'status': st, 'theorems': t, 'note': n.get('note', '' if t else 'not modelled yet')})
json.dump({'claims': claims}, open(os.path.join(here, 'MANIFEST.json'), 'w'), indent=1, ensure_ascii=False)
print(len(claims), sum(len(c['theorems']) for c in claims), [c['property'] for c in claims if not c['theorems']])
