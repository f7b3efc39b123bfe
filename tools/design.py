"""Rewrite the generated part of DESIGN.md (after the line '<!-- generated -->').

Lists, per property, the status and theorems of MANIFEST.json, and the theorems that refute a
property together with their doc comments.
"""
import glob, json, os, re
root = os.path.dirname(os.path.dirname(os.path.abspath(__file__)))
props = {}
for l in open(root + '/properties.jsonl'):
    if l.strip():
        d = json.loads(l)
        props[d['id']] = d
man = json.load(open(root + '/MANIFEST.json'))['claims']
docs = {}
for f in sorted(glob.glob(root + '/lean/Verif/Props/*.lean')):
    s = open(f).read()
    for m in re.finditer(r'/--((?:(?!-/).)*)-/\s*theorem (C\d\d\d?_\w*)', s, re.S):
        docs[m[2]] = (' '.join(m[1].split()), os.path.relpath(f, root))
out = ['<!-- generated -->', '', '## Status per property', '',
       'Generated from `MANIFEST.json` by `tools/design.py`.', '']
for c in man:
    p = props[c['property']]
    out.append('* **%s** %s — *%s*. %s' % (p['id'], p['title'], c['status'], c['note']))
out += ['', '## Disagreements between the code and the properties', '',
        'Each item is a theorem about the modelled code. The property stays in `properties.jsonl` as it',
        'should hold; the theorem says how the code falls short.', '']
pat = re.compile(r'wrong|too_large|too_small|corrupts|dangling|_fail|empty_none|C69_zero|C26_mst')
for k in sorted(docs):
    if pat.search(k) and 'too_large' != k[4:] or k in ('C10_too_large',):
        out.append('* `%s` (`%s`): %s' % (k, docs[k][1], docs[k][0]))
t = open(root + '/DESIGN.md').read().split('<!-- generated -->')[0].rstrip() + '\n\n'
open(root + '/DESIGN.md', 'w').write(t + '\n'.join(out) + '\n')
