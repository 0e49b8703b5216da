#!/usr/bin/env python3
"""Mutation runner: applies each edit to a scratch copy of the Lean project (outside /verif), rebuilds, reports.
usage: mutate.py muts.json out.jsonl     (muts.json: list of {file, definition, edit, old, new, claim, also?: [{file, old, new}]})"""
import json, sys, os, re, shutil, subprocess
SRC='/verif/lean'; W='/tmp/mutwork/lean'
def sync():
    os.makedirs(W, exist_ok=True)
    subprocess.run(['rsync','-a','--delete','--exclude','.lake',SRC+'/',W+'/'],check=True) if shutil.which('rsync') else fallback()
def fallback():
    for r in ('Verif','Verif.lean','lakefile.toml','lean-toolchain','lake-manifest.json'):
        s=os.path.join(SRC,r); d=os.path.join(W,r)
        if not os.path.exists(s): continue
        if os.path.isdir(s):
            for root,_,fs in os.walk(s):
                for f in fs:
                    p=os.path.join(root,f); q=os.path.join(d,os.path.relpath(p,s)); os.makedirs(os.path.dirname(q),exist_ok=True)
                    t=open(p).read()
                    if not os.path.exists(q) or open(q).read()!=t: open(q,'w').write(t)
        else:
            t=open(s).read()
            if not os.path.exists(d) or open(d).read()!=t: open(d,'w').write(t)
    # remove stale
    for root,_,fs in os.walk(os.path.join(W,'Verif')):
        for f in fs:
            p=os.path.join(root,f)
            if not os.path.exists(os.path.join(SRC,'Verif',os.path.relpath(p,os.path.join(W,'Verif')))): os.remove(p)
DECL=re.compile(r'^(?:@\[[^\]]*\]\s*)*(?:private\s+|protected\s+|noncomputable\s+)*(theorem|lemma|def|abbrev|instance|example|inductive|structure)\s*([^\s:({\[]*)')
def decl_at(path,line):
    name='?'
    for i,l in enumerate(open(path),1):
        if i>line: break
        m=DECL.match(l)
        if m: name=m.group(2) or m.group(1)
    return name
def imports():
    g={}
    for root,_,fs in os.walk(os.path.join(W,'Verif')):
        for f in fs:
            p=os.path.join(root,f); m='Verif.'+os.path.relpath(p,os.path.join(W,'Verif'))[:-5].replace('/','.')
            g[m]=[x for x in re.findall(r'^import (Verif\.\S+)',open(p).read(),re.M)]
    return g
def main():
    muts=json.load(open(sys.argv[1])); out=sys.argv[2]
    sync()
    if not os.path.exists(W+'/.lake'): subprocess.run(['cp','-r',SRC+'/.lake',W+'/.lake'])
    r=subprocess.run('lake build',shell=True,cwd=W,capture_output=True,text=True)
    assert r.returncode==0, r.stdout[-2000:]
    g=imports()
    for m in muts:
        p=os.path.join(W,'Verif',m['file']); t=open(p).read()
        if t.count(m['old'])<1: print('!! not found',m['definition'],m['old']); continue
        saved={p:t}
        open(p,'w').write(t.replace(m['old'],m['new'],m.get('count',1)))
        for a in m.get('also',[]):   # the same edit in a lemma that restates the definition
            q=os.path.join(W,'Verif',a['file']); u=open(q).read(); saved.setdefault(q,u)
            if u.count(a['old'])<1: print('!! not found (also)',m['definition'],a['old'])
            open(q,'w').write(u.replace(a['old'],a['new'],1))
        r=subprocess.run('lake build',shell=True,cwd=W,capture_output=True,text=True)
        for q,u in saved.items(): open(q,'w').write(u)
        errs=re.findall(r'^error: (\S+\.lean):(\d+):\d+',r.stdout+r.stderr,re.M)
        failed={}
        for f,l in errs: failed.setdefault(f,set()).add(decl_at(os.path.join(W,f),int(l)))
        bad={f[:-5].replace('/','.') for f in failed}
        blocked=set()
        ch=True
        while ch:
            ch=False
            for k,v in g.items():
                if k not in blocked and k not in bad and any(x in bad or x in blocked for x in v): blocked.add(k); ch=True
        rec={**{k:m[k] for k in('file','definition','edit','claim')},'failed':{f.replace('Verif/',''):sorted(s) for f,s in failed.items()},'blocked':sorted(b.replace('Verif.','') for b in blocked if 'Props' in b)}
        with open(out,'a') as o: o.write(json.dumps(rec)+'\n')
        print(m['definition'],'|',m['edit'],'|',rec['failed'],'| blocked',rec['blocked'],flush=True)
    sync()
main()
