#!/usr/bin/env python3
"""Mechanical seeded-bug campaign. Generates one-token edits of the definitions of a model file (comparison operators,
connectives, literals, arithmetic, truth values, concatenation order, dropped statements), applies each to a scratch
copy, rebuilds until the first theorem fails, and logs the attempt. Edits that do not type-check are dropped.
usage: automutate.py FILE SCRATCH OUT.jsonl [seed [max]]"""
import sys,json,subprocess,shutil,os,re,random,time,signal
root=os.environ.get('MUT_ROOT','/verif/lean')
f,scratch,outp=sys.argv[1:4]
seed=int(sys.argv[4]) if len(sys.argv)>4 else 1
mx=int(sys.argv[5]) if len(sys.argv)>5 else 10**9
def sync(): subprocess.run(['rsync','-a','--delete','--exclude','.git',root+'/',scratch+'/'],check=True) if shutil.which('rsync') else (shutil.rmtree(scratch,ignore_errors=True), shutil.copytree(root,scratch,symlinks=True))
OPS=[(r' < ',[' ≤ ',' > ']),(r' ≤ ',[' < ']),(r' > ',[' ≥ ',' < ']),(r' ≥ ',[' > ']),(r' = (?=.*\bthen\b)',[' ≠ ']),(r' ≠ ',[' = ']),
 (r' == ',[' != ']),(r' != ',[' == ']),(r' && ',[' || ']),(r' \|\| ',[' && ']),(r' ∧ ',[' ∨ ']),(r' ∨ ',[' ∧ ']),
 (r'(?<![\w.:\[])(\d+)(?![\w.\]])',['NUM+1','NUM-1']),(r' \+ ',[' - ']),(r' - ',[' + ']),(r' \* ',[' + ']),(r' / ',[' % ']),(r' % ',[' / ']),
 (r'\btrue\b',['false']),(r'\bfalse\b',['true']),(r' \+\+ ',['SWAPCAT']),(r' <<< ',[' >>> ']),(r' >>> ',[' <<< ']),
 (r'\.take\b',['.drop']),(r'\.drop\b',['.take']),(r'\bif (?!h\w* :|let)(.+?) then',['NEGIF']),
 (r'\.(sender|recipient|value|fee|total|start|step|amount|owner)\b',['FIELD']),(r'\.reverse\b',['']),(r'\bsome ([a-z]\w*)',['none'])]
F={'sender':'recipient','recipient':'sender','value':'fee','fee':'value','total':'step','start':'step','step':'start','amount':'total','owner':'recipient'}
def strip_comments(s):
    # blank out comments, keep positions
    o=list(s); i=0; d=0
    while i<len(s):
        if s.startswith('/-',i): d+=1; o[i]=o[i+1]=' '; i+=2; continue
        if d and s.startswith('-/',i): d-=1; o[i]=o[i+1]=' '; i+=2; continue
        if d:
            if s[i]!='\n': o[i]=' '
            i+=1; continue
        if s.startswith('--',i):
            while i<len(s) and s[i]!='\n': o[i]=' '; i+=1
            continue
        i+=1
    return ''.join(o)
def gen(s):
    c=strip_comments(s); res=[]
    # regions: def ... until next top-level keyword
    tops=[m.start() for m in re.finditer(r'^(?=[a-z@#])',c,re.M)]+[len(c)]
    for a,b in zip(tops,tops[1:]):
        m=re.match(r'(?:@\[.*?\]\s*)?(?:private |protected |noncomputable )*(?:def|abbrev)\s+(\S+)',c[a:b])
        if not m: continue
        name=m.group(1); body=c[a:b]
        k=body.find(':='); k2=re.search(r'^\s*\|',body,re.M); st=min([x for x in (k,k2.start() if k2 else -1) if x>=0] or [0])
        for pat,reps in OPS:
            for mm in re.finditer(pat,body):
                if mm.start()<st: continue
                line=body[body.rfind('\n',0,mm.start())+1:body.find('\n',mm.end()) if body.find('\n',mm.end())>=0 else len(body)]
                if re.match(r'\s*(termination_by|decreasing_by|have |simp|omega|rw|exact)',line): continue
                for r in reps:
                    t=mm.group(0)
                    if r=='NUM+1': n=str(int(t)+1)
                    elif r=='NUM-1':
                        if int(t)==0: continue
                        n=str(int(t)-1)
                    elif r=='SWAPCAT':
                        L=re.search(r'([\w.\']+|\([^()]*\)|\[[^\[\]]*\])$',body[:mm.start()]); R=re.match(r'([\w.\']+|\([^()]*\)|\[[^\[\]]*\])',body[mm.end():])
                        if not L or not R: continue
                        res.append((name,a+L.start(),a+mm.end()+R.end(),R.group(0)+' ++ '+L.group(0),line.strip())); continue
                    elif r=='NEGIF': n='if ¬ ('+mm.group(1)+') then'
                    elif r=='FIELD': n='.'+F[mm.group(1)]
                    else: n=r
                    res.append((name,a+mm.start(),a+mm.end(),n,line.strip()))
        # statement deletions in do-blocks
        if re.search(r'\bdo\b',body):
            for mm in re.finditer(r'^(\s{2,})(?!let|if|else|match|return|pure|\||fun|·|have|termination|decreasing)(\w[^\n]*)\n',body,re.M):
                if mm.start()<st: continue
                res.append((name,a+mm.start(),a+mm.end(),'\n' if False else mm.group(1)+'pure ()\n',mm.group(2).strip()))
    return res
def thm_at(path,line):
    ls=open(path).read().split('\n')
    for i in range(min(line,len(ls))-1,-1,-1):
        m=re.match(r'(?:@\[.*?\]\s*)?(?:private )?(theorem|def|example|instance|lemma)\s*(\S*)',ls[i])
        if m: return m.group(2) if m.group(1)!='example' else 'example@%s:%d'%(os.path.basename(path),i+1)
    return '?'
def kind_at(path,line):
    ls=open(path).read().split('\n')
    for i in range(min(line,len(ls))-1,-1,-1):
        m=re.match(r'(?:@\[.*?\]\s*)?(?:private |protected |noncomputable )*(theorem|def|abbrev|structure|inductive|example|instance|lemma|mutual)\b',ls[i])
        if m: return 'thm' if m.group(1) in ('theorem','example','lemma') else 'def'
    return 'def'
src=open(root+'/'+f).read()
sync(); muts=gen(src); random.Random(seed).shuffle(muts); muts=muts[:mx]
done=set()
if os.path.exists(outp):
    for l in open(outp): d=json.loads(l); done.add((d['pos'],d['new']))
print(len(muts),'mutants',flush=True)
for name,a,b,n,line in muts:
    if (a,n) in done: continue
    if open(root+'/'+f).read()!=src: print('source changed; stop'); break
    open(scratch+'/'+f,'w').write(src[:a]+n+src[b:])
    t0=time.time(); fails=[]; still=False; tmo=False; mods=[]
    p=subprocess.Popen(['lake','build'],cwd=scratch,stdout=subprocess.PIPE,stderr=subprocess.STDOUT,text=True,start_new_session=True)
    try:
        signal.signal(signal.SIGALRM,lambda *_:(_ for _ in ()).throw(TimeoutError())); signal.alarm(1500)
        for l in p.stdout:
            m=re.search(r'error: (Verif/\S+?\.lean):(\d+):',l)
            if m:
                if m.group(1)==f and kind_at(scratch+'/'+f,int(m.group(2)))=='def': still=True; break
                t=thm_at(scratch+'/'+m.group(1),int(m.group(2)))
                if t not in fails: fails.append(t)
                if m.group(1) not in mods: mods.append(m.group(1))
            elif fails and ('✔' in l or '✖' in l or 'ℹ' in l) : break
        signal.alarm(0)
    except TimeoutError: tmo=True
    try: os.killpg(p.pid,signal.SIGKILL)
    except ProcessLookupError: pass
    p.wait()
    rec={'definition':name,'file':f,'pos':a,'old':src[a:b],'new':n,'line':line,'result':'ill-typed' if still else 'killed' if fails else 'timeout' if tmo else 'SURVIVED','theorems_failed':fails,'modules':mods,'secs':int(time.time()-t0)}
    open(outp,'a').write(json.dumps(rec,ensure_ascii=False)+'\n')
    print(rec['result'],name,repr(src[a:b]),'->',repr(n),'|',line[:100],'|',fails[:3],rec['secs'],flush=True)
