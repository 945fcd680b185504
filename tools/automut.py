#!/usr/bin/env python3
"""Random token mutants of the model; reports the survivors.  usage: automut.py SEED COUNT OUT [files...]
Works in /tmp/amut (a copy of /verif/lean).  A mutant is killed at the first error outside Verif/Model."""
import json,sys,subprocess,re,os,random,signal,time
SRC='/verif/lean'; W='/tmp/amut'
OPS=[(r' \+ 1\b',''),(r' - 1\b',''),(r'\b0\b','1'),(r'\b1\b','2'),(r'\b1\b','0'),(r' < ',' ≤ '),(r' ≤ ',' < '),(r' \+ ',' - '),(r' - ',' + '),(r' \* ',' + '),
     (r'\bi\b','j'),(r'\bj\b','i'),(r'\bk\b','j'),(r'\bloop\b','loopRev'),(r'\bloopRev\b','loop'),(r'\blt\b','le'),(r'\ble\b','lt'),(r'\brows\b','data.length'),
     (r'!\(','('),(r'-\(','('),(r'\bmin\b','max'),(r'\bmax\b','min'),(r' = ',' ≠ '),(r' ≠ ',' = '),(r'\bn\b','m'),(r'\bm\b','n'),(r'\bp\b','q'),(r'\bq\b','p'),(r'\bs\b','c'),(r'\bx\b','y'),
     (r' \+ ',' * '),(r'\btrue\b','false'),(r'\bfalse\b','true'),(r'FloatOps.abs \(',' (')]
def gen(files):
    out=[]
    for f in files:
        ls=open(f'{SRC}/Verif/Model/{f}.lean').read().split('\n')
        inc=False; com=False
        for n,l in enumerate(ls):
            st=l.strip()
            if st.startswith('/-'): com=True
            if com:
                if '-/' in l: com=False
                continue
            m=re.match(r'def (\S+)',l)
            if m: cur=m.group(1); inc=True; continue_body=(':=' in l and not l.rstrip().endswith(':=') and not l.rstrip().endswith('do'))
            elif l and not l.startswith(' '): inc=False
            if not inc or st=='' or st.startswith('--'): continue
            start=0
            if m:
                i=l.rfind(':=')
                if i<0 or l.rstrip().endswith(':= do') or l.rstrip().endswith(':='): continue
                start=i+2
            elif re.match(r'\s*\(.*\) : ',l) or (':=' in l and re.match(r'^    R \(',l)): continue
            for a,b in OPS:
                for mm in re.finditer(a,l[start:]):
                    s,e=mm.start()+start,mm.end()+start
                    out.append((f,n,cur,l,l[:s]+b+l[e:]))
    return out
def main():
    seed,count,outp=int(sys.argv[1]),int(sys.argv[2]),sys.argv[3]
    files=sys.argv[4:] or ['Cholesky','Direct','Eigen','LU','Matrix','Norm','QR','SVD','Text','Word','Macro','Prim']
    import shutil; shutil.rmtree(W,ignore_errors=True); shutil.copytree(SRC,W,symlinks=True)
    ms=gen(files); random.Random(seed).shuffle(ms); seen=set(); k=0
    print(len(ms),'candidates',flush=True)
    for f,n,d,l,new in ms:
        if k>=count: break
        if (f,n,new) in seen: continue
        seen.add((f,n,new))
        p=f'{W}/Verif/Model/{f}.lean'; orig=open(p).read(); ls=orig.split('\n')
        if ls[n]!=l: continue
        ls[n]=new; open(p,'w').write('\n'.join(ls)); t=time.time()
        # the model file itself must still compile
        r=subprocess.run(f'lake build Verif.Model.{f}',shell=True,cwd=W,capture_output=True,text=True)
        if r.returncode!=0:
            open(p,'w').write(orig); continue
        k+=1
        pr=subprocess.Popen('lake build 2>&1',shell=True,cwd=W,stdout=subprocess.PIPE,text=True,preexec_fn=os.setsid)
        killed=None
        for line in pr.stdout:
            if line.startswith('error: Verif/'):
                killed=line.strip()[:120]; os.killpg(pr.pid,signal.SIGKILL); break
        pr.wait()
        if killed is None and pr.returncode!=0: killed='rc'
        open(p,'w').write(orig)
        with open(outp,'a') as g: g.write(json.dumps(dict(file=f,line=n+1,defn=d,old=l.strip(),new=new.strip(),killed=killed,t=round(time.time()-t)))+'\n')
        if killed is None: print('SURVIVED',f,n+1,d,'|',l.strip(),'|',new.strip(),flush=True)
    print('done',k,flush=True)
main()
