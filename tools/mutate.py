#!/usr/bin/env python3
"""Mutation runner: python3 tools/mutate.py batch.json
Each entry: {"def","file","old","new","edit","claim"}; edits are applied in a scratch copy (/tmp/mut), never in /verif."""
import json, os, re, subprocess, sys
SRC='/tmp/mut/src/lean'; DST='/tmp/mut/lean'  # SRC: a snapshot of the last commit
def sh(c): return subprocess.run(c,shell=True,capture_output=True,text=True)
def sync():
    os.makedirs('/tmp/mut',exist_ok=True)
    if not os.path.isdir(DST): sh('cp -r /verif/lean /tmp/mut/')
    else: sh(f'rsync -a --delete --exclude .lake {SRC}/ {DST}/') if sh('which rsync').stdout else sh(f'rm -rf {DST}/Verif && cp -rp {SRC}/Verif {SRC}/Verif.lean {DST}/')
def decls(path):
    out=[]
    for i,l in enumerate(open(path),1):
        m=re.match(r'\s*(?:private |protected |noncomputable )?(theorem|def|example|instance|abbrev|inductive)\s*([^\s:({\[]*)',l)
        if m: out.append((i,m.group(2) or m.group(1)))
    return out
def at(path,line):
    n='?'
    for i,d in decls(path):
        if i<=line: n=d
    return n
def props(path): return [d for _,d in decls(path) if re.match(r'C\d+_',d)]
sh('rm -rf /tmp/mut/src; mkdir -p /tmp/mut/src; cd /verif && git archive HEAD lean | tar x -C /tmp/mut/src')
batch=json.load(open(sys.argv[1]))
log=open('/verif/seeded/LOG.jsonl','a') if '--dry' not in sys.argv else open('/tmp/work/mut_dry.jsonl','a')
for m in batch:
    sync()
    f=f'{DST}/Verif/{m["file"]}'
    s=open(f).read()
    if s.count(m['old'])<1: print('NOT FOUND',m); continue
    s=s.replace(m['old'],m['new'],m.get('count',1)); open(f,'w').write(s)
    r=sh(f'cd {DST} && lake build 2>&1')
    failed=[]; mods=set()
    for l in r.stdout.splitlines():
        e=re.match(r'error: (Verif/\S+\.lean):(\d+)',l)
        if e:
            mods.add(e.group(1)); n=at(f'{DST}/{e.group(1)}',int(e.group(2)))
            if n not in failed: failed.append(n)
    cur=None
    for l in r.stdout.splitlines():
        e=re.match(r'. \[\d+/\d+\] Building (\S+)',l)
        if e: cur=e.group(1).replace('.','/')+'.lean'
        if 'exited with code 137' in l and cur: mods.add(cur); failed.append('(module '+cur+': proof search on the false goal ran out of memory)')
    # modules never built because they import a failed one
    imports={}
    for root,_,fs in os.walk(f'{DST}/Verif'):
        for x in fs:
            p=os.path.relpath(os.path.join(root,x),DST)
            imports[p]=[i.replace('.','/')+'.lean' for i in re.findall(r'^import (Verif\S*)',open(os.path.join(root,x)).read(),re.M)]
    blocked=set(); ch=True
    while ch:
        ch=False
        for p,i in imports.items():
            if p not in blocked and p not in mods and any(x in mods or x in blocked for x in i): blocked.add(p); ch=True
    bl=sorted(d for p in blocked for d in props(f'{DST}/{p}'))
    rec={"definition":m['def'],"file":m['file'],"edit":m['edit'],"claim_broken":m['claim'],"theorems_failed":failed,
         "dependents_not_accepted":bl if len(bl)<=12 else bl[:12]+[f'... {len(bl)-12} more'],
         "theorems_tightened":m.get('tightened',[]),"note":m.get('note','')}
    print(json.dumps(rec)); sys.stdout.flush()
    log.write(json.dumps(rec)+'\n'); log.flush()
sync()
