#!/usr/bin/env python3
"""Random one-token bugs in the model (scratch copy of /tmp/mutsrc in /tmp/amut). Kills the build at the first error outside the mutated file.
usage: automutate.py <seed> <count> [file ...]    results: /tmp/w/auto.jsonl   (survivors are what matters; they are reviewed by hand and logged as AM*)"""
import json, os, random, re, subprocess, sys, time, signal
SRC="/tmp/mutsrc/"; DST="/tmp/amut/"; OUT="/tmp/w/auto.jsonl"
OPS=[(r" ≤ "," < "),(r" < "," ≤ "),(r" \+ 1\b",""),(r" - 1\b",""),(r" \+ "," - "),(r" - "," + "),(r" \* "," + "),(r"\btrue\b","false"),(r"\bfalse\b","true"),(r" ∧ "," ∨ "),(r" ∨ "," ∧ "),
     (r" && "," || "),(r" \|\| "," && "),(r"\bmin\b","max"),(r"\bmax\b","min"),(r"\.isSome\b",".isNone"),(r"\.isNone\b",".isSome"),(r"\.reverse\b",""),(r"\b0\b","1"),(r"\b1\b","0"),(r" = "," ≠ "),(r" ≠ "," = "),
     (r"\.1\b",".2"),(r"\.2\b",".1"),(r"\bneg\b","id"),(r"\binv\b","neg"),(r" ++ "," ++ [] ++ "),(r"⊤","0"),(r"\bi\b","j"),(r"\bj\b","i"),(r"\bs'\b","s"),(r"\bs\b","s'"),(r"\ba\b","b"),(r"\bb\b","a"),(r"\bu\b","v"),(r"\bv\b","u"),(r"\bmul\b","add"),
     (r"\binsert\b","erase"),(r"\bsome \(",r"none.elim none fun () => some ("),(r"\.tail\b",""),(r"\bnot\b",""),(r"!","")]
def strip_comments(s):
    # mask comments
    out=list(s); i=0; depth=0
    while i<len(s):
        if s.startswith("/-",i): depth+=1; out[i]=out[i+1]="\0"; i+=2; continue
        if depth and s.startswith("-/",i): depth-=1; out[i]=out[i+1]="\0"; i+=2; continue
        if depth: out[i]="\0"
        elif s.startswith("--",i):
            while i<len(s) and s[i]!="\n": out[i]="\0"; i+=1
            continue
        i+=1
    return "".join(out)
def candidates(f):
    s=open(SRC+"Verif/Model/"+f).read(); t=strip_comments(s); c=[]
    for pat,rep in OPS:
        for m in re.finditer(pat,t):
            ls=t.rfind("\n",0,m.start())+1; line=t[ls:t.find("\n",m.start())]
            if re.match(r"\s*(import|variable|open|set_option|namespace|section|end|theorem|lemma|termination_by|decreasing_by|have|deriving)",line): continue
            if rep.startswith("none.elim"): continue
            # only after := on definition header lines
            if re.match(r"\s*(private |noncomputable |protected )*(def|abbrev|instance|structure|class|inductive)\b",line):
                k=line.find(":=")
                if k<0 or m.start()<ls+k: continue
            c.append((m.start(),m.end(),m.group(0),rep))
    return s,c
def decl_at(s,pos):
    m=None
    for m in re.finditer(r"^(?:@\[[^\]]*\]\s*)?(?:private |noncomputable |protected )*(?:def|abbrev|instance|structure|inductive|class)\s+([^\s:({\[]*)",s[:pos],re.M): pass
    return m.group(1) if m else "?"
def run(f,s,c):
    a,b,old,new=c
    t=s[:a]+new+s[b:]
    subprocess.run("rsync -a --delete %s %s"%(SRC,DST) if os.path.exists("/usr/bin/rsync") else "rm -rf %s && cp -a %s %s"%(DST,SRC.rstrip("/"),DST.rstrip("/")),shell=True,check=True)
    open(DST+"Verif/Model/"+f,"w").write(t)
    line=s.count("\n",0,a)+1; ls=s.rfind("\n",0,a)+1; le=s.find("\n",a)
    rec=dict(file=f,line=line,decl=decl_at(s,a),old=s[ls:le].strip(),new=(s[ls:a]+new+s[b:le]).strip())
    t0=time.time()
    p=subprocess.Popen(["lake","build","Verif"],cwd=DST,stdout=subprocess.PIPE,stderr=subprocess.STDOUT,text=True,preexec_fn=os.setsid)
    status="survived"; err=""; exs=[]
    for l in p.stdout:
        m=re.search(r"error: (Verif/[\w/]+\.lean):(\d+):",l)
        if m:
            status="invalid" if m.group(1)=="Verif/Model/"+f else "killed"; err=l.strip()[:200]
            if status=="killed" and m.group(1).startswith("Verif/Model/"): status="invalid"
            if status=="killed":
                ls=open(DST+m.group(1)).read().split("\n"); k=int(m.group(2))-1
                while k>0 and not re.match(r"(?:@\[[^\]]*\]\s*)?(?:private |noncomputable |protected )*(theorem|lemma|def|instance|example|abbrev|structure)\b",ls[k]): k-=1
                if ls[k].startswith("example") or "Conformance" in m.group(1): status="survived"; exs.append(l.strip()[:150]); continue
            break
        if time.time()-t0>2400: status="timeout"; break
    if status!="survived":
        try: os.killpg(p.pid,signal.SIGKILL)
        except Exception: pass
    rc=p.wait()
    if status=="survived" and rc!=0: status="examples only" if exs else "error rc=%d"%rc
    if exs: rec["examples"]=exs
    rec.update(status=status,err=err,seconds=round(time.time()-t0))
    with open(OUT,"a") as g: g.write(json.dumps(rec,ensure_ascii=False)+"\n")
    print(status,f,line,rec["decl"],"|",rec["old"][:90],"=>",rec["new"][:90],"|",err[:80],rec["seconds"],flush=True)
if __name__=="__main__":
    random.seed(int(sys.argv[1])); n=int(sys.argv[2]); fs=sys.argv[3:] or [f for f in os.listdir(SRC+"Verif/Model") if f.endswith(".lean")]
    allc=[(f,s,c) for f in fs for (s,cs) in [candidates(f)] for c in cs]
    print(len(allc),"candidates")
    seen=set()
    if os.path.exists(OUT): seen={(x["file"],x["old"],x["new"]) for x in map(json.loads,open(OUT))}
    random.shuffle(allc)
    k=0
    for f,s,c in allc:
        if k>=n: break
        ls=s.rfind("\n",0,c[0])+1; le=s.find("\n",c[0])
        key=(f,s[ls:le].strip(),(s[ls:c[0]]+c[3]+s[c[1]:le]).strip())
        if key in seen or key[1]==key[2]: continue
        seen.add(key); k+=1
        run(f,s,c)
