#!/usr/bin/env python3
"""Regenerates MANIFEST.json: collects theorems named C<nn>_... from the Props files, status from STATUS below."""
import re,glob,json,os
root=os.path.dirname(os.path.dirname(os.path.abspath(__file__)))
st=json.load(open(root+'/tools/status.json'))
ths={}
for f in sorted(glob.glob(root+'/lean/Verif/**/*.lean',recursive=True)):
    stack=[]
    for l in open(f):
        m=re.match(r'(namespace|section)\b *(\S*)',l)
        if m: stack.append((m.group(1),m.group(2)))
        m=re.match(r'end\b *(\S*)\s*$',l)
        if m and stack and stack[-1][1]==m.group(1): stack.pop()
        m=re.match(r'theorem (C(\d\d+)_\S+)',l)
        if m: ths.setdefault('C'+m.group(2),[]).append('.'.join([n for k,n in stack if k=='namespace']+[m.group(1)]))
claims=[]
for l in open(root+'/properties.jsonl'):
    p=json.loads(l)['id']
    s=st.get(p)
    if not s: 
        if p in ths: print('missing status',p)
        continue
    claims.append({"property":p,"status":s[0],"theorems":ths.get(p,[]),"note":s[1]})
json.dump({"claims":claims},open(root+'/MANIFEST.json','w'),indent=1)
