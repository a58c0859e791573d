import json,re,glob,os
root='/verif'
props=[json.loads(l) for l in open(root+'/properties.jsonl')]
st=json.load(open(root+'/tools/status.json'))
where={}
for f in sorted(glob.glob(root+'/lean/Verif/**/*.lean',recursive=True)):
    for l in open(f):
        m=re.match(r'theorem (C(\d\d+)_\S+)',l)
        if m: where.setdefault('C'+m.group(2),set()).add(os.path.relpath(f,root+'/lean/Verif')[:-5])
how=json.load(open(root+'/tools/how.json'))
rows=[]
for p in props:
    i=p['id']
    rows.append(f"| {i} | {p['title']} | {st[i][0]} | {', '.join(sorted(where.get(i,[])))} | {how.get(i,'')} |")
t=open(root+'/tools/DESIGN.in.md').read()
open(root+'/DESIGN.md','w').write(t.replace('@@TABLE@@','\n'.join(rows)))
