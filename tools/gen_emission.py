#!/usr/bin/env python3
"""Writes lean/Verif/Policy/Chunks.lean: claimed values of the emission curve every 2^14 blocks, checked by the kernel."""
N=48692959; D=14; n=2**D
u=1848000000000000-4194303
vals=[u]; h=0
full=N//n
for i in range(full):
    for _ in range(n): u=(u*4194303)>>22
    vals.append(u)
rest=N-full*n
out=['import Verif.Policy.Lanes','/-! # Generated by tools/gen_emission.py: the emission curve every 2^14 blocks -/','namespace Nimiq.Policy','']
K=8; per=(full+K-1)//K
bounds=[]
for k in range(K):
    a,b=k*per,min((k+1)*per,full)
    l=vals[a:b]; last=vals[b]
    lines=[', '.join(map(str,l[i:i+8])) for i in range(0,len(l),8)]
    out.append('def lanes%d : List Nat := [\n  %s]'%(k,',\n  '.join(lines)))
    out.append('theorem check%d : check %d lanes%d %d = true := by decide +kernel'%(k,D,k,last))
    out.append('theorem curve%d : shrink^[%d] %d = %d :=\n  check_curve check%d rfl (by decide +kernel)'%(k,(b-a)*n,vals[a],last,k))
    out.append('')
    bounds.append((a*n,b*n,vals[a],last))
# remainder: one lane, binary
m=0; u=vals[full]; parts=[]
for d in reversed(range(15)):
    if rest>>d&1:
        v=u
        for _ in range(2**d): v=(v*4194303)>>22
        out.append('theorem check%d_%d : check %d [%d] %d = true := by decide +kernel'%(K,d,d,u,v))
        out.append('theorem curve%d_%d : shrink^[%d] %d = %d :=\n  check_curve check%d_%d rfl (by decide +kernel)'%(K,d,2**d,u,v,K,d))
        parts.append(('curve%d_%d'%(K,d),2**d)); u=v
names=[('curve%d'%k,bounds[k][1]-bounds[k][0]) for k in range(K)]+parts
out.append('')
out.append('/-- The value before the tail starts. -/')
out.append('theorem curve_end : shrink^[%d] %d = %d := by'%(N,vals[0],u))
t=names[0][0]; tot=names[0][1]; pv=[]
for i,(nm,c) in enumerate(names[1:]):
    tot+=c
    out.append('  have h%d := iter_glue (k := %d) %s %s rfl'%(i,tot,t,nm)); t='h%d'%i
out.append('  exact %s'%t)
out.append('\nend Nimiq.Policy')
open('/verif/lean/Verif/Policy/Chunks.lean','w').write('\n'.join(out)+'\n')
