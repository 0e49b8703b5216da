"""DESIGN.md from tools/design_body.md, MANIFEST.json, seeded/LOG.jsonl and the axioms that Lean prints (run after `lake build`)."""
import json, re, subprocess, os, tempfile
V='/verif'
claims=json.load(open(V+'/MANIFEST.json'))['claims']
props={}
for l in open(V+'/properties.jsonl'):
    d=json.loads(l); props[d['id']]=d
body=open(V+'/tools/design_body.md').read()
names=[]
for c in claims:
    for t in c['theorems']:
        if t not in names: names.append(t)
f='/tmp/ax_all.lean'
open(f,'w').write('import Verif\n'+''.join('#print axioms %s\n'%n for n in names))
out=subprocess.run(['lake','env','lean',f],cwd=V+'/lean',capture_output=True,text=True).stdout
out=re.sub(r'\s+',' ',out)
ax={}
for m in re.finditer(r"'([^']+(?:'*))' depends on axioms: \[([^\]]*)\]",out): ax[m.group(1)]=m.group(2)
for m in re.finditer(r"'([^']+)' does not depend on any axioms",out): ax[m.group(1)]='none'
groups={}
for n in names:
    if n not in ax: print('no axioms printed for',n)
    groups.setdefault(ax.get(n,'?'),[]).append(n)
s=''
for g in sorted(groups,key=lambda g:-len(groups[g])):
    s+='**%s** (%d theorems): %s.\n\n'%(g,len(groups[g]),', '.join('`%s`'%n for n in groups[g]))
st='| prop | title | status | theorems | note |\n|---|---|---|---|---|\n'
for c in claims:
    st+='| %s | %s | %s | %s | %s |\n'%(c['property'],props[c['property']]['title'],c['status'],', '.join('`%s`'%t.split('.')[-1] for t in c['theorems']),c.get('note',''))
log=[json.loads(l) for l in open(V+'/seeded/LOG.jsonl')]
tight=sum(1 for l in log if l.get('tightened') or l.get('theorems_tightened'))
mu='%d attempts so far; %d of them led to a tightened or new theorem.'%(len(log),tight)
more={}
mf=V+'/tools/design_more.json'
if os.path.exists(mf): more=json.load(open(mf))
def rep(k,v):
    global body
    body=body.replace('@@'+k+'@@',v)
rep('MORE_MODELS','\n'.join(more.get('models',[])))
rep('MORE_PLAN','\n'.join(more.get('plan',[])))
rep('MORE_FINDINGS','\n'.join(more.get('findings',[])))
rep('MUTS',mu); rep('AXIOMS',s.strip()); rep('STATUS',st.strip())
body=re.sub(r'\|\n\n(?=\n)','|\n',body)
open(V+'/DESIGN.md','w').write(body)
