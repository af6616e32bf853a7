#!/usr/bin/env python3
"""Seed realistic bugs into a scratch copy of the model and record which theorems stop proving.
usage: mutate.py [id ...]   (/tmp/mutsrc is a built copy of /verif/lean; scratch copy: /tmp/mut; appends to /verif/seeded/LOG.jsonl)"""
import json, os, re, subprocess, sys, time
sys.path.insert(0, os.path.dirname(__file__))
from mutations import M
SRC=os.environ.get("MUTSRC","/tmp/mutsrc")+"/"; DST="/tmp/mut/"; LOG="/verif/seeded/LOG.jsonl"
man=json.load(open("/verif/MANIFEST.json"))
claim={c["property"]:[t.split(".")[-1] for t in c["theorems"]] for c in man["claims"]}
def decl_at(path,line):
    ls=open(path).read().split("\n")
    for i in range(min(line,len(ls))-1,-1,-1):
        m=re.match(r"\s*(?:@\[[^\]]*\]\s*)?(?:private |noncomputable |protected )*(theorem|lemma|def|instance|example|abbrev|structure)\b\s*([^\s:({\[]*)",ls[i])
        if m and m.group(1)=="instance" and not m.group(2):
            # the name Lean generates, as far as letters go
            w=re.findall(r"[A-Za-z_]\w*",ls[i].split("instance",1)[1].split(" where")[0].split(":=")[0].split(":")[-1])
            return "inst"+"".join(x[0].upper()+x[1:] for x in w[:2])
        if m: return (m.group(2) or m.group(1)+"@%d"%(i+1))
    return "?"
def where(thm):
    for d,_,fs in os.walk(SRC+"Verif"):
        for f in fs:
            if f.endswith(".lean") and re.search(r"^theorem (\w+\.)*%s\b"%re.escape(thm),open(d+"/"+f).read(),re.M): return (d+"/"+f)[len(SRC):-5].replace("/",".")
    return None
DEPS={k:{x.split(".")[-1]:x for x in v} for k,v in json.load(open("/tmp/w/deps.json")).items()}  # from tools/deps.lean.txt
def status(th,fail,rc):
    if th in fail: return "fails"
    if rc==0: return "still proves"
    names={f.split(".")[-1] for f in fail}
    hit=sorted(n for n in names if n in DEPS.get(th,{}))
    if hit: return "depends on failed declaration "+", ".join(hit)
    return "not reached by the build; does not depend on a failed declaration"
THROUGH="--through" in sys.argv
START=re.compile(r"(?:@\[[^\]]*\]\s*)?(?:private |noncomputable |protected )*(theorem|lemma|def|instance|example|abbrev|structure)\b")
def hole(locs,seen):
    n=0
    for path in {p for p,_ in locs}:
        ls=open(DST+path).read().split("\n")
        starts=set()
        for p,line in locs:
            if p!=path: continue
            i=min(line,len(ls))-1
            while i>=0 and not START.match(ls[i]): i-=1
            if i>=0: starts.add(i)
        for i in sorted(starts,reverse=True):
            j=i+1
            while j<len(ls) and (ls[j]=="" or ls[j][0].isspace()): j+=1
            body="\n".join(ls[i:j])
            if (path,ls[i]) in seen: continue
            seen[(path,ls[i])]=1
            k=START.match(ls[i]).group(1)
            if k=="example": ls[i:j]=["example : True := trivial",""]; n+=1; continue
            m=re.search(r":= by$|:= by\n|:=\n|:= ?(?=[⟨f])|:= (?=\S)",body)
            # the last `:=` of the statement: skip default arguments (named instances in brackets)
            pos=None
            depth=0; q=0
            while q<len(body):
                c=body[q]
                if c in "([{⟨": depth+=1
                elif c in ")]}⟩": depth-=1
                elif body.startswith(":=",q) and depth==0 and not re.search(r"(let|have|set)\b[^\n;]*$",body[:q].split("\n")[-1]): pos=q; break
                q+=1
            if pos is None: continue
            ls[i:j]=(body[:pos]+":= by "+"so"+"rry\n").split("\n"); n+=1
        open(DST+path,"w").write("\n".join(ls))
    return n
def run(mu):
    subprocess.run("rm -rf /tmp/mut && cp -a "+SRC.rstrip("/")+" /tmp/mut",shell=True,check=True)
    p=DST+"Verif/Model/"+mu["file"]
    s=open(p).read()
    n=mu.get("count",1)
    assert s.count(mu["old"])==n or (n is None and mu["old"] in s),(mu["id"],s.count(mu["old"]))
    open(p,"w").write(s.replace(mu["old"],mu["new"]))
    t=time.time()
    try: r=subprocess.run(["lake","build","Verif"],cwd=DST,capture_output=True,text=True,timeout=2400); out=r.stdout+r.stderr; rc=r.returncode
    except subprocess.TimeoutExpired as e: out=(e.stdout or b"").decode(); rc=-1
    fail=[]
    for m in re.finditer(r"error: (Verif/[\w/]+\.lean):(\d+):",out):
        n=decl_at(DST+m.group(1),int(m.group(2)))
        if n not in fail: fail.append(n)
    # continue past failed proofs: in the scratch copy their bodies are replaced by a hole, so that the modules behind them are built too
    full=False
    if THROUGH:
        seen={}
        for _ in range(12):
            if rc==0 or rc==-1: break
            locs=[(m.group(1),int(m.group(2))) for m in re.finditer(r"error: (Verif/[\w/]+\.lean):(\d+):",out)]
            if not hole(locs,seen): break
            r=subprocess.run(["lake","build","Verif"],cwd=DST,capture_output=True,text=True,timeout=2400); out=r.stdout+r.stderr; rc2=r.returncode
            for m in re.finditer(r"error: (Verif/[\w/]+\.lean):(\d+):",out):
                n=decl_at(DST+m.group(1),int(m.group(2)))
                if n not in fail: fail.append(n)
            if rc2==0: full=True; break
    built=set(re.findall(r"(?:Built|Replayed) (Verif[\w.]*)",out))
    st={}
    for c in mu["claims"]:
        for th in claim[c]:
            st[th]=status(th,fail,rc)
            if full and st[th].startswith("not reached"): st[th]="still proves, does not depend on a failed declaration"
    rec={"id":mu["id"],"definition":mu["def"],"file":"Verif/Model/"+mu["file"],"edit":mu["edit"],"claims_broken":mu["claims"],"build":"fails" if rc else "passes",
         "theorems_failed":fail,"claim_theorems":st,**({"through":True} if THROUGH else {}),"theorems_tightened":mu.get("tightened",[]),**({"note":"equivalent: the edit does not falsify the claim"} if mu.get("equivalent") else {}),"seconds":round(time.time()-t)}
    with open(LOG,"a") as f: f.write(json.dumps(rec,ensure_ascii=False)+"\n")
    print(mu["id"],rec["build"],fail[:6],{k:v[:12] for k,v in st.items()},rec["seconds"],flush=True)
    open("/tmp/mutout_"+mu["id"]+".txt","w").write(out)
if __name__=="__main__":
    ids=[a for a in sys.argv[1:] if not a.startswith("--")]
    done=set()
    if os.path.exists(LOG): done={json.loads(l)["id"] for l in open(LOG)}
    for mu in M:
        if (ids and mu["id"] in ids) or (not ids and mu["id"] not in done): 
            try: run(mu)
            except AssertionError as e: print("BAD PATTERN",e)
