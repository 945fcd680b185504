#!/usr/bin/env python3
"""Mutation testing of the model.  usage: mutate.py BATCH.json [start]
BATCH.json: list of {file, old, new, defn, edit, claim, (nth)}.  Works in /tmp/mut (a copy of /verif/lean)."""
import json,sys,subprocess,re,os,shutil,glob
SRC='/verif/lean'; W='/tmp/mut'
def sync():
    os.makedirs(W,exist_ok=True)
    subprocess.run(['rsync','-a','--delete',SRC+'/',W+'/'],check=True) if shutil.which('rsync') else (shutil.rmtree(W,ignore_errors=True),shutil.copytree(SRC,W,symlinks=True))
def enclosing(path,line):
    ls=open(path).read().split('\n')[:line]
    for l in reversed(ls):
        m=re.match(r'(?:@\[.*?\]\s*)?(?:private |noncomputable |protected )*(theorem|lemma|def|instance|example)\s*(\S*)',l)
        if m: return (m.group(2) or m.group(1)).rstrip(':') if m.group(1)!='example' else 'example'
    return '?'
def imports():
    d={}
    for p in glob.glob(W+'/Verif/**/*.lean',recursive=True)+[W+'/Verif.lean']:
        mod=os.path.relpath(p,W)[:-5].replace('/','.')
        d[mod]=set(re.findall(r'^import (Verif\S*)',open(p).read(),re.M))
    return d
def main():
    batch=json.load(open(sys.argv[1])); start=int(sys.argv[2]) if len(sys.argv)>2 else 0
    sync()
    for k,m in enumerate(batch):
        if k<start: continue
        p=f"{W}/Verif/{m['file']}"; orig=open(p).read()
        n=orig.count(m['old']); nth=m.get('nth',0)
        if n==0 or (n>1 and 'nth' not in m):
            print(k,'BAD PATTERN',n,m['old'],flush=True); continue
        parts=orig.split(m['old']); new=m['old'].join(parts[:nth+1])+m['new']+m['old'].join(parts[nth+1:])
        open(p,'w').write(new)
        r=subprocess.run('lake build 2>&1',shell=True,cwd=W,capture_output=True,text=True)
        failed=[];mods=set()
        for f,l in re.findall(r'^error: (Verif/\S+?\.lean):(\d+):',r.stdout,re.M):
            nm=enclosing(f'{W}/{f}',int(l)); mods.add(f[:-5].replace('/','.'))
            if (f,nm) not in failed: failed.append((f,nm))
        modelbroken=[x for x in failed if x[0].startswith('Verif/Model')]
        imp=imports(); blocked=set(); ch=True
        while ch:
            ch=False
            for a,b in imp.items():
                if a not in blocked and a not in mods and b&(mods|blocked): blocked.add(a); ch=True
        cl=m['claim'].split()[0].rstrip(':')
        bl=[]
        for b in blocked:
            if '.Props.' in b:
                bl+=re.findall(rf'^theorem ({cl}_\S+)',open(W+'/'+b.replace('.','/')+'.lean').read(),re.M)
        direct=[x[1] for x in failed]
        killed = r.returncode!=0
        status='MODEL DOES NOT COMPILE' if modelbroken else ('killed' if killed else 'SURVIVED')
        print(k,status,m['defn'],'|',m['edit'],'|',m['claim'][:60],'| failed:',direct[:6],'| blocked:',bl[:6],flush=True)
        if not modelbroken:
            with open('/tmp/mutlog.jsonl','a') as g:
                g.write(json.dumps({"definition":m['defn'],"edit":m['edit'],"claim_broken":m['claim'],"theorems_failed":direct,"theorems_blocked_by_failed_lemmas":bl,"survived":not killed,"theorems_tightened":[]})+'\n')
        open(p,'w').write(orig)
main()
