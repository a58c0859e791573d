#!/usr/bin/env python3
"""Seeded-bug runner: applies one edit to a scratch copy of lean/, rebuilds, reports which theorems fail.
usage: mutate.py edits.json   (list of {def,file,old,new,claim}); appends to seeded/LOG.jsonl"""
import sys,json,subprocess,shutil,os,re
root='/verif'; scratch='/tmp/mut'
def sync():
    subprocess.run(['rsync','-a','--delete',root+'/lean/',scratch+'/'],check=True) if shutil.which('rsync') else (
      shutil.rmtree(scratch,ignore_errors=True), shutil.copytree(root+'/lean',scratch,symlinks=True))
def thm_at(path,line):
    ls=open(path).read().split('\n')
    for i in range(min(line,len(ls))-1,-1,-1):
        m=re.match(r'(?:private )?(theorem|def|example|instance|lemma)\s*(\S*)',ls[i])
        if m: return m.group(2) if m.group(1)!='example' else 'example@%d'%(i+1)
    return '?'
for e in json.load(open(sys.argv[1])):
    sync()
    p=scratch+'/'+e['file']; s=open(p).read()
    if s.count(e['old'])<1: print('NO MATCH',e['def']); continue
    open(p,'w').write(s.replace(e['old'],e['new'],1))
    try:
        r=subprocess.run(['lake','build'],cwd=scratch,capture_output=True,text=True,timeout=e.get('timeout',900)); out=r.stdout+r.stderr
    except subprocess.TimeoutExpired: out='error: timeout'
    fails=[]; mods=[]
    for m in re.finditer(r'error: (Verif/\S+?\.lean):(\d+):',out):
        t=thm_at(scratch+'/'+m.group(1),int(m.group(2))); 
        if t not in fails: fails.append(t)
    for m in re.finditer(r'^- (Verif\S*)',out,re.M): mods.append(m.group(1))
    if not fails and 'timeout' in out: fails=['(build timeout)']
    rec={'definition':e['def'],'edit':e['old']+'  =>  '+e['new'],'claim_broken':e['claim'],'theorems_failed':fails,'failed_modules':mods,'theorems_tightened':e.get('tightened',[])}
    if e.get('note'): rec['note']=e['note']
    print(json.dumps(rec)[:600]); sys.stdout.flush()
    if not fails: print('   !!!! SURVIVED')
    if '--dry' not in sys.argv:
        open(root+'/seeded/LOG.jsonl','a').write(json.dumps(rec)+'\n')
