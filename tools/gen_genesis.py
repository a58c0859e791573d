#!/usr/bin/env python3
"""Writes lean/Verif/Genesis/{Main,Test}File.lean from /repo/genesis/files/*.bin: the bytes of the files as numbers, the
entries of the account files, and the checks that the kernel makes of them."""
import sys
REPO=sys.argv[1] if len(sys.argv)>1 else '/repo'
OUT=sys.argv[2] if len(sys.argv)>2 else '/verif/lean/Verif/Genesis'
def parse(a):
    n=int.from_bytes(a[:2],'big'); o=2; rows=[]
    def take(k):
        nonlocal o
        x=int.from_bytes(a[o:o+k],'big'); o+=k; return x
    for _ in range(n):
        s=o; addr=take(20); t=take(1); bal=take(8)
        if t==0: rows.append((s,['b',addr,bal]))
        elif t==1: rows.append((s,['v',addr,bal,take(20),take(4),take(4),take(8),take(8)]))
        else: raise SystemExit('type %d'%t)
    assert o==len(a)
    return rows
def hx(x,k): return '0x'+('%0*x'%(2*k,x))
for name in ('main','test'):
    blk=open(f'{REPO}/genesis/files/{name}.block.bin','rb').read()
    acc=open(f'{REPO}/genesis/files/{name}.accounts.bin','rb').read()
    rows=parse(acc); K=64
    o=['import Verif.Genesis.Packed',
       f'/-! # Generated by tools/gen_genesis.py from genesis/files/{name}.block.bin and genesis/files/{name}.accounts.bin -/',
       'set_option maxRecDepth 20000',
       'namespace Nimiq.Genesis','open Beserial Wire Accounts Beserial.Spec','']
    o+=[f'/-- The {len(blk)} bytes of genesis/files/{name}.block.bin (genesis.go:54-55 `embedFiles`). -/',
        f'def {name}BlockBin : Bytes := digits {len(blk)}\n  {hx(int.from_bytes(blk,"big"),len(blk))}','']
    B=lambda i,k:int.from_bytes(blk[i:i+k],'big')
    assert B(0,2)==1 and B(2,64)==0 and B(134,4)==1 and blk[146:148]==b'\0\1' and B(148,20)==0 and blk[169+blk[168]:]==bytes(4)
    o+=[f'/-- The accounts hash in the header of genesis/files/{name}.block.bin. -/',
        f'def {name}Root : Hash32 := hashOf\n  {hx(B(98,32),32)}','',
        f'theorem {name}_block : {name}BlockBin = spread (blockParts\n  {hx(B(66,32),32)}\n  {hx(B(98,32),32)}\n  {B(130,4)} {B(138,4)} {B(142,4)} {blk[168]}\n  {hx(B(169,blk[168]),blk[168])}) :=',
        '  digits_spread (by decide +kernel) (by decide +kernel) (by decide +kernel)','',
        f'theorem {name}_opened : ∃ v, UnmarshalFull blockTy blockTy.zero {name}BlockBin = .ok v ∧',
        f'    Block.ofVal v = some ⟨1, {name}Root, some ⟨addrOf 0, [], []⟩⟩ := by',
        f'  rw [{name}_block]',
        '  exact open_block (by decide +kernel)','']
    o+=[f'/-- The number whose {len(acc)} base 256 digits are genesis/files/{name}.accounts.bin. -/',
        f'def {name}AccountsNum : Nat :=\n  {hx(int.from_bytes(acc,"big"),len(acc))}','',
        f'/-- The {len(acc)} bytes of genesis/files/{name}.accounts.bin (genesis.go:54-55 `embedFiles`). -/',
        f'def {name}AccountsBin : Bytes := digits {len(acc)} {name}AccountsNum','']
    pieces=[]; sums=[]
    for c in range(0,len(rows),K):
        i=c//K; part=rows[c:c+K]
        s=part[0][0]; e=rows[c+K][0] if c+K<len(rows) else len(acc)
        x=int.from_bytes(acc[s:e],'big'); tot=sum(r[1][2] for r in part)
        f=lambda r:'.%s %s'%(r[0],' '.join([hx(r[1],20),str(r[2])]+([hx(r[3],20)]+[str(y) for y in r[4:]] if r[0]=='v' else [])))
        o.append(f'def {name}Rows{i} : List Row := [\n  '+',\n  '.join(f(r[1]) for r in part)+']')
        o.append(f'def {name}Piece{i} : Nat :=\n  {hx(x,e-s)}')
        o.append(f'theorem {name}_piece{i} : checkPiece {name}Rows{i} {e-s} {name}Piece{i} {tot} = true := by decide +kernel')
        o.append('')
        pieces.append((i,e-s,tot))
    o.append(f'def {name}Rows : List (List Row) := [{", ".join(f"{name}Rows{i}" for i,_,_ in pieces)}]')
    pl=', '.join([f'(2, {len(rows)})']+[f'({n}, {name}Piece{i})' for i,n,_ in pieces])
    o.append(f'theorem {name}_pieces : digits {len(acc)} {name}AccountsNum = spread [{pl}] :=')
    o.append('  digits_spread (by decide +kernel) (by decide +kernel) (by decide +kernel)')
    o.append('')
    o.append(f'def {name}Addrs : List Nat := [\n  '+',\n  '.join(hx(r[1][1],20) for r in rows)+']')
    o.append(f'theorem {name}_addrs : {name}Rows.flatten.map Row.addr = {name}Addrs := by decide +kernel')
    o.append(f'theorem {name}_distinct : distinct {name}Addrs = true := by decide +kernel')
    o.append(f'theorem {name}_absent : distinct.absent 0 {name}Addrs = true := by decide +kernel')
    o.append('')
    ent=lambda e:f'(({e}.map Row.entry).map fun e => e.1.val ++ accountLayout e.2).flatten'
    o.append(f'theorem {name}_layout : {name}AccountsBin = digits 2 {len(rows)} ++ {ent(name+"Rows.flatten")} := by')
    o.append(f'  unfold {name}AccountsBin')
    o.append(f'  rw [{name}_pieces]')
    o.append(f'  simp only [spread, List.map_cons, List.map_nil, List.flatten_cons, List.flatten_nil, '+', '.join(f'(piece {name}_piece{i}).1' for i,_,_ in pieces)+f', {name}Rows, List.map_append, List.flatten_append, List.append_nil]')
    o.append('')
    o.append(f'theorem {name}_sum : ({name}Rows.flatten.map Row.balance).sum = {sum(t for _,_,t in pieces)} := by')
    o.append(f'  simp only [{name}Rows, List.flatten_cons, List.flatten_nil, List.map_append, List.sum_append, List.map_nil, List.sum_nil, '+', '.join(f'(piece {name}_piece{i}).2.1' for i,_,_ in pieces)+', Nat.reduceAdd]')
    o.append('')
    o.append(f'theorem {name}_fit : ∀ rows ∈ {name}Rows, fit (partsOf rows) = true := by')
    o.append(f'  simp only [{name}Rows, List.forall_mem_cons]')
    o.append('  exact ⟨'+', '.join(f'(piece {name}_piece{i}).2.2' for i,_,_ in pieces)+', by simp⟩')
    o.append(f'theorem {name}_length : {name}Rows.flatten.length = {len(rows)} := by decide +kernel')
    o.append('')
    o.append('end Nimiq.Genesis')
    open(f'{OUT}/{name.capitalize()}File.lean','w').write('\n'.join(o)+'\n')
