#!/usr/bin/env python3
"""Apply one-edit mutants of the model in a scratch copy, rebuild, and log which theorems fail.
usage: mutate.py mutants.json   -- list of {file, old, new, definition, edit, claim, target?}"""
import json,sys,subprocess,shutil,os,re
SRC='/verif/lean'; DST='/tmp/mut/lean'
def sh(c,**k): return subprocess.run(c,shell=True,capture_output=True,text=True,**k)
os.makedirs('/tmp/mut',exist_ok=True)
sh(f'rsync -a --delete {SRC}/ {DST}/') if shutil.which('rsync') else sh(f'rm -rf {DST}; cp -a {SRC} {DST}')
for mu in json.load(open(sys.argv[1])):
    f=f'{DST}/Verif/{mu["file"]}'
    s=open(f).read()
    n=s.count(mu['old'])
    if n!=1:
        print('SKIP',n,'matches',mu['definition'],mu['old'][:50]); continue
    open(f,'w').write(s.replace(mu['old'],mu['new']))
    r=sh(f'timeout 900 lake build {mu.get("target","")} 2>&1',cwd=DST)
    fails=[]
    for m in re.finditer(r'error: (Verif/\S+?\.lean):(\d+):',r.stdout):
        L=open(f'{DST}/{m[1]}').read().split('\n')[:int(m[2])]
        nm=None
        for line in reversed(L):
            mm=re.match(r'\s*(?:@\[[^\]]*\]\s*)?(?:private |protected )?(theorem|lemma|def|instance|example|abbrev|structure)\s*(\S*)',line)
            if mm: nm=(mm[2] if mm[1]!='example' else 'example') or mm[1]; break
        nm=f'{m[1]}:{nm}'
        if nm not in fails: fails.append(nm)
    bad=[m for m in re.findall(r'✖ \[\d+/\d+\] Building (\S+)',r.stdout)]
    open(f,'w').write(s)
    rec={'definition':mu['definition'],'edit':mu['edit'],'claim_broken':mu['claim'],'theorems_failed':fails,'theorems_tightened':mu.get('tightened',[])}
    if not fails and not bad: rec['survived']=True
    print(json.dumps(rec,ensure_ascii=False)[:400])
    if '--dry' not in sys.argv:
        open('/verif/seeded/LOG.jsonl','a').write(json.dumps(rec,ensure_ascii=False)+'\n')
