#!/usr/bin/env python3
"""Single source for /verif/properties.jsonl and /verif/MANIFEST.json.
Run: python3 tools/props.py   (checks that each anchor symbol occurs in its /repo file)"""
import json, os, sys, re
P = []   # properties
def prop(id, title, statement, quantifier, why, anchors, status=None, theorems=(), note=""):
    P.append(dict(id=id, title=title, statement=statement, quantifier=quantifier,
                  why=why, anchors=anchors, status=status, theorems=list(theorems), note=note))
CL = {}
def claim(id, status, theorems, note=""):
    CL[id] = (status, list(theorems), note)
here = os.path.dirname(os.path.abspath(__file__))
for f in sorted(os.listdir(os.path.join(here, 'props.d'))):
    if f.endswith('.py'):
        exec(compile(open(os.path.join(here, 'props.d', f)).read(), f, 'exec'))
bad = 0
for p in P:
    if p['id'] in CL: p['status'], p['theorems'], p['note'] = CL.pop(p['id'])
if CL: print('claims without property', list(CL)); bad = 1
for p in P:
    for a in p['anchors']:
        path, sym = a.split(':', 1)
        try: txt = open('/repo/' + path).read()
        except FileNotFoundError:
            print('missing file', p['id'], path); bad = 1; continue
        if sym not in txt:
            print('missing symbol', p['id'], a); bad = 1
ids = [p['id'] for p in P]
assert len(ids) == len(set(ids)), [i for i in ids if ids.count(i) > 1]
P.sort(key=lambda p: p['id'])
# theorem existence
src = ''
for d, _, fs in os.walk(os.path.join(here, '..', 'lean')):
    if '.lake' in d: continue
    for f in fs:
        if f.endswith('.lean'): src += open(os.path.join(d, f)).read()
for p in P:
    for t in p['theorems']:
        if not re.search(r'theorem\s+' + re.escape(t.split('.')[-1]) + r'\b', src):
            print('missing theorem', p['id'], t); bad = 1
with open(os.path.join(here, '..', 'properties.jsonl'), 'w') as o:
    for p in P:
        o.write(json.dumps(dict(id=p['id'], title=p['title'], statement=p['statement'], quantifier=p['quantifier'],
                                why_tests_cant=p['why'], anchors=p['anchors'])) + '\n')
claims = [dict(property=p['id'], status=p['status'], theorems=p['theorems'], note=p['note']) for p in P if p['status']]
with open(os.path.join(here, '..', 'MANIFEST.json'), 'w') as o:
    json.dump({"claims": claims}, o, indent=1); o.write('\n')
print(len(P), 'properties', len(claims), 'claims', 'BAD' if bad else 'ok',
      'no status yet: ' + ' '.join(p['id'] for p in P if not p['status']))
sys.exit(bad)
