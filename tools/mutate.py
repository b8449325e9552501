#!/usr/bin/env python3
"""Mutation testing of the model: apply each edit of a mutant file to a scratch copy, rebuild, log what fails.

usage: mutate.py MUTANTS.py [name ...]     (scratch copy: /tmp/mut, made from /verif/lean)
A mutant is (name, file, definition, old, new, claims, why).  `claims` are the properties whose English text is false of the edited program.
Every module is elaborated even if a module it imports has failed proofs (tools/drive.txt), so the log lists all proofs that fail by themselves, and the
property theorems (C..) that rest on a failed lemma.
"""
import sys, os, re, json, subprocess, shutil, importlib.util, collections, time
SRC=os.environ.get('SRC','/verif/lean'); MUT=os.environ.get('MUTDIR','/tmp/mut'); LOG='/verif/seeded/LOG.jsonl'

def deps():
    """direct dependencies between the constants of the project (from the unmutated build)"""
    f='/tmp/deps.json'
    stamp=subprocess.run(['git','-C','/verif','rev-parse','HEAD'],capture_output=True,text=True).stdout.strip()
    if os.path.exists(f):
        d=json.load(open(f))
        if d['stamp']==stamp: return d['deps']
    lean='''import Lean
import Verif
open Lean
run_cmd do
  let env ← getEnv
  let mut out := #[]
  for (n, c) in env.constants.toList do
    if (`Parsel).isPrefixOf n then
      let used := c.type.getUsedConstants ++ (c.value? (allowOpaque := true)).elim #[] (·.getUsedConstants)
      let used := used.filter fun m => (`Parsel).isPrefixOf m
      out := out.push s!"{n}\\t{" ".intercalate (used.toList.map toString)}"
  IO.FS.writeFile "/tmp/deps.txt" ("\\n".intercalate out.toList)
'''
    open('/tmp/deps.lean','w').write(lean)
    r=subprocess.run(['lake','env','lean','/tmp/deps.lean'],cwd=SRC,capture_output=True,text=True)
    print(r.stdout,r.stderr)
    d={}
    for l in open('/tmp/deps.txt'):
        a,_,b=l.rstrip('\n').partition('\t')
        d[a]=b.split()
    json.dump({'stamp':stamp,'deps':d},open(f,'w'))
    return d

def closure_users(d):
    """for every constant: the property theorems that (transitively) use it"""
    rev=collections.defaultdict(set)
    for a,bs in d.items():
        for b in bs: rev[b].add(a)
    def users(x):
        seen={x}; st=[x]
        while st:
            y=st.pop()
            for z in rev.get(y,()):
                if z not in seen: seen.add(z); st.append(z)
        return sorted(n for n in seen if re.match(r'Parsel\.C\d\d_',n) and n.count('.')==1)
    return users

DECL=re.compile(r'^(?:@\[[^\]]*\]\s*)*(?:private |protected |noncomputable |local )*(theorem|lemma|def|instance|example|abbrev|inductive|structure|macro)\s*([^\s:({\[]*)')
def decl_at(path,line):
    ls=open(path).read().split('\n'); ns=[]; cur=('','?','',0)
    for i,l in enumerate(ls[:line]):
        m=re.match(r'^namespace (\S+)',l)
        if m: ns.append(m.group(1))
        m=re.match(r'^end (\S+)',l)
        if m and ns and ns[-1]==m.group(1): ns.pop()
        m=DECL.match(l)
        if m: cur=('.'.join(ns),m.group(1),m.group(2),i+1)
    a,k,n,i=cur
    if k=='example' or not n: return f'{k}@{path.split("/Verif/")[1]}:{i}'
    return (a+'.' if a else '')+n

def siblings(mods):
    """declarations of one mutual block are one proof"""
    out={}
    for p,_ in mods.values():
        ns=[]; blk=None
        for l in open(p).read().split('\n'):
            m=re.match(r'^namespace (\S+)',l)
            if m: ns.append(m.group(1))
            m=re.match(r'^end (\S+)',l)
            if m and ns and ns[-1]==m.group(1): ns.pop()
            if l.strip()=='mutual': blk=[]
            elif l.strip()=='end' and blk is not None:
                for n in blk: out[n]=blk
                blk=None
            m=DECL.match(l)
            if m and blk is not None: blk.append('.'.join(ns)+'.'+m.group(2))
    return out

def modules(root):
    mods={}
    for dp,_,fs in os.walk(f'{root}/Verif'):
        for f in fs:
            if f.endswith('.lean'):
                p=f'{dp}/{f}'; m='Verif.'+os.path.relpath(p,f'{root}/Verif')[:-5].replace('/','.')
                mods[m]=(p,[x for x in re.findall(r'^import (\S+)',open(p).read(),re.M) if x.startswith('Verif')])
    return mods

def dependents(mods,m):
    out={m}; ch=True
    while ch:
        ch=False
        for x,(p,im) in mods.items():
            if x not in out and any(i in out for i in im): out.add(x); ch=True
    return out

LIB=f'{SRC}/.lake/build/lib/lean'
WORKERS=int(os.environ.get('WORKERS','3'))
def check(mods,todo,lib,mutp,mutmod):
    """elaborate the modules of todo in dependency order, in parallel; returns errors"""
    env=dict(os.environ)
    done=set(); running={}; res={}
    todo=set(todo); t0=time.time()
    while todo or running:
        for m in sorted(todo):
            if len(running)>=WORKERS: break
            if all(i in done or i not in mods or i not in ALL for i in mods[m][1]):
                path=mutp if m==mutmod else mods[m][0]
                out=f'{lib}/{m.replace(".","/")}.olean'
                pr=subprocess.Popen(['timeout','900','lake','env','lean','--run','/tmp/drv/Drive.lean',path,m,out,lib],cwd=SRC,stdout=subprocess.PIPE,stderr=subprocess.PIPE,text=True)
                running[m]=pr; todo.discard(m)
        for m,pr in list(running.items()):
            if pr.poll() is not None:
                o,e=pr.communicate(); del running[m]; done.add(m)
                res[m]=(pr.returncode,o,e)
        time.sleep(0.05)
    return res

ALL=set()
def main():
    global ALL
    spec=importlib.util.spec_from_file_location('m',sys.argv[1]); m=importlib.util.module_from_spec(spec); spec.loader.exec_module(m)
    want=set(sys.argv[2:])
    d=deps(); users=closure_users(d)
    os.makedirs('/tmp/drv',exist_ok=True); shutil.copy('/verif/tools/drive.txt','/tmp/drv/Drive.lean')
    lib=f'{MUT}/lib'; shutil.rmtree(MUT,ignore_errors=True); os.makedirs(MUT)
    subprocess.run(['cp','-r',LIB,lib],check=True)
    mods=modules(SRC)
    for mu in m.MUTANTS:
        name,file,defn,old,new,claims,why=mu
        if want and name not in want: continue
        orig=open(f'{SRC}/Verif/{file}.lean').read()
        if orig.count(old)!=1:
            print(name,'OLD TEXT OCCURS',orig.count(old),'TIMES',flush=True); continue
        mm='Verif.'+file.replace('/','.')
        os.makedirs(f'{MUT}/src/Verif/{os.path.dirname(file)}',exist_ok=True)
        p=f'{MUT}/src/Verif/{file}.lean'; open(p,'w').write(orig.replace(old,new))
        ALL=dependents(mods,mm)
        t0=time.time(); res=check(mods,ALL,lib,p,mm)
        failed=[]; broken=[]; sib=siblings(mods)
        for x,(rc,o,e) in res.items():
            if rc!=0: broken.append(f'{x}: rc {rc} {e[:200]}')
            for l in o.split('\n'):
                if l.startswith('ERR '):
                    n=decl_at(p if x==mm else mods[x][0],int(l.split()[1]))
                    if n not in failed: failed.append(n)
                if l.startswith('FAIL '):
                    n=l[5:]
                    if n not in failed and n.split('._')[0] not in failed: failed.append(n)
        for x in ALL:
            q=x.replace('.','/')
            shutil.copy(f'{LIB}/{q}.olean',f'{lib}/{q}.olean')
        typeerr=[n for n in failed if any(n.endswith('.'+z) or n==z for z in defn.split(', '))]
        direct=sorted(n.replace('Parsel.','') for n in failed if re.match(r'(Parsel\.)?C\d\d_',n))
        rest=sorted({u.replace('Parsel.','') for n in failed for k in sib.get(n,[n]) for u in users(k)}-set(direct))
        verdict='survived' if not failed and not broken else 'killed'
        hit=direct+rest
        missed=[c for c in claims if not any(t.startswith(c+'_') for t in hit)]
        soft=[c for c in claims if c not in missed and not any(t.startswith(c+'_') for t in direct)]
        rec={'mutant':name,'file':f'lean/Verif/{file}.lean','definition':defn,'edit':{'old':old,'new':new},'claim_broken':why,'claims':claims,
             'verdict':verdict,'theorems_failed':direct,'lemmas_failed':sorted(n.replace('Parsel.','') for n in failed if n.replace('Parsel.','') not in direct),
             'theorems_resting_on_failed_lemmas':rest,'claims_not_hit':missed,'theorems_tightened':[]}
        if typeerr: rec['note']='the edited definition itself does not elaborate'
        open(LOG,'a').write(json.dumps(rec,ensure_ascii=False)+'\n')
        print(f'{name}: {verdict} {int(time.time()-t0)}s; C failed {direct[:8]}; lemmas {rec["lemmas_failed"][:5]}; rest {len(rest)}; NOT HIT {missed} only-via-lemma {soft} {"TYPE ERROR" if typeerr else ""} {broken}',flush=True)
main()
